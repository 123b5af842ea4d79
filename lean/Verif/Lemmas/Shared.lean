import Verif.Spec.Shared
import Verif.Lemmas.RollRuns
import Verif.Lemmas.RollThreads
import Verif.Lemmas.RollNames

/-! # Each of several writers in one directory works as if it were alone -/

namespace Log4g
open Spec Strconv

variable {umask : Nat} {lib : RLib} {c : RCfg}

/-- Whether `n` is the log file or has a name like those of backups. -/
def RCfg.mine (c : RCfg) (n : Str) : Bool :=
  decide (n = c.fileName) || c.hasRollName n && (match c.kind with | .size _ => decide ((atoi (c.getFileRollName n)).2 = none) | .time _ => true)

theorem mine_iff (c : RCfg) (n : Str) : c.mine n = true ↔ NameOf c n := by
  simp only [RCfg.mine, Bool.or_eq_true, decide_eq_true_eq, Bool.and_eq_true, NameOf]
  refine or_congr Iff.rfl ⟨?_, ?_⟩
  · rintro ⟨h1, h2⟩
    refine ⟨_, backup_of_hasRollName c n h1, ?_⟩
    cases hk : c.kind with
    | size max => simp only [hk, decide_eq_true_eq] at h2; exact (atoi_ok_iff _).mp h2
    | time pat => trivial
  · rintro ⟨tag, rfl, h⟩
    refine ⟨hasRollName_backup c tag, ?_⟩
    rw [getFileRollName_backup]
    cases hk : c.kind with
    | size max => simp only [hk] at h; simp only [decide_eq_true_eq]; exact (atoi_ok_iff _).mpr h
    | time pat => rfl

theorem mine_current (c : RCfg) : c.mine c.fileName = true := (mine_iff c _).mpr (.inl rfl)

theorem mine_backup {n : Str} {v : Int} (h : Backup lib c n v) : c.mine n = true ∧ n ≠ c.fileName := by
  constructor
  · rw [mine_iff]
    obtain ⟨tag, rfl, ht⟩ := h
    refine .inr ⟨tag, rfl, ?_⟩
    generalize c.kind = k at ht
    cases ht with
    | size h1 h2 h3 => exact ⟨v, h1, h2, h3⟩
    | time _ _ => trivial
  · rintro rfl; exact current_not_backup lib c v h

theorem mine_new {rw : RW} {tag : Str} (h : TagOf c rw tag) : c.mine (backupName c.mode c.fileName tag) = true ∧ backupName c.mode c.fileName tag ≠ c.fileName := by
  constructor
  · rw [mine_iff]
    refine .inr ⟨tag, rfl, ?_⟩
    unfold TagOf at h
    cases hk : c.kind with
    | size max =>
      rw [hk] at h
      obtain ⟨v, rfl⟩ := h
      exact decimal_tag_range v
    | time pat => trivial
  · intro e
    have := hasRollName_current c
    rw [← e, hasRollName_backup] at this
    cases this

/-- The answer to a call as far as it concerns the writer. -/
def RCfg.sift (c : RCfg) : (o : Sys) → o.Resp → o.Resp
  | .readdir, r => r.map fun names => names.filter c.mine
  | _, r => r

theorem historyOf_sift (names : List Str) : c.historyOf lib (names.filter c.mine) = c.historyOf lib names := by
  have : ((((names.filter c.mine).filter c.hasRollName).map c.getFileRollName).filter (c.isFileRollNameValid lib)) =
      ((names.filter c.hasRollName).map c.getFileRollName).filter (c.isFileRollNameValid lib) := by
    induction names with
    | nil => rfl
    | cons n ns ih =>
      by_cases hm : c.mine n = true
      · by_cases hr : c.hasRollName n = true
        · simp only [List.filter_cons_of_pos hm, List.filter_cons_of_pos hr, List.map_cons]
          by_cases hv : c.isFileRollNameValid lib (c.getFileRollName n) = true
          · rw [List.filter_cons_of_pos hv, List.filter_cons_of_pos hv, ih]
          · rw [List.filter_cons_of_neg hv, List.filter_cons_of_neg hv, ih]
        · simp only [List.filter_cons_of_pos hm, List.filter_cons_of_neg hr]; exact ih
      · rw [List.filter_cons_of_neg hm, ih]
        by_cases hr : c.hasRollName n = true
        · have hv : ¬ c.isFileRollNameValid lib (c.getFileRollName n) = true := by
            intro hv
            obtain ⟨v, ht⟩ := (valid_iff lib c _).mp hv
            exact hm (mine_backup ((backup_iff lib c n v).mpr ⟨hr, ht⟩)).1
          rw [List.filter_cons_of_pos hr, List.map_cons, List.filter_cons_of_neg hv]
        · rw [List.filter_cons_of_neg hr]
  simp only [RCfg.historyOf, this]

/-- The calls a writer may make when its file is open or not (`b`). -/
def RCfg.may (c : RCfg) (b : Bool) : Sys → Prop
  | .mkdirAll _ => True
  | .openAppend n _ => n = c.fileName ∧ b = false
  | .stat n => n = c.fileName ∧ b = true
  | .write n _ => n = c.fileName ∧ b = true
  | .close n => n = c.fileName ∧ b = true
  | .readdir => True
  | .rename x y => x = c.fileName ∧ c.mine y = true ∧ y ≠ c.fileName ∧ b = false
  | .chmod n _ => c.mine n = true ∧ n ≠ c.fileName
  | .remove n => c.mine n = true ∧ n ≠ c.fileName
  | .now => True
  | .tmpCreate | .archRead | .tmpClose | .tmpRemove => c.archive ≠ .none
  | _ => False

/-- The answers there are to calls. -/
def sane : (o : Sys) → o.Resp → Prop
  | .archRead, r => r = .failed
  | _, _ => True

theorem vol_sane {v v' : Volume} {h h' : Option Nat} {o : Sys} {r : o.Resp} (hs : VolStep umask v h o r v' h') : sane o r := by
  cases o <;> first | trivial | exact hs.2.2

/-- Whether the file is open after a call. -/
def opens (b : Bool) : (o : Sys) → o.Resp → Bool
  | .openAppend _ _, r => if r = true then true else b
  | .close _, _ => false
  | _, _ => b

/-- The calls of a program are those a writer may make; of the names in the directory it looks at its own only; in the
end, `Q`. -/
def Prog.Tidy (c : RCfg) {α : Type} (Q : Bool → α → Prop) : Bool → Prog α → Prop
  | b, .ret a => Q b a
  | b, .call o k => c.may b o ∧ ∀ r, sane o r → k r = k (c.sift o r) ∧ (k r).Tidy c Q (opens b o r)

section
variable {α β : Type} {Q : Bool → α → Prop} {R : Bool → β → Prop}

theorem Prog.Tidy.bind {p : Prog α} {g : α → Prog β} {b : Bool} (hp : p.Tidy c Q b) (hg : ∀ b a, Q b a → (g a).Tidy c R b) : (p >>= g).Tidy c R b := by
  show (p.bind g).Tidy c R b
  induction p generalizing b with
  | ret a => exact hg b a hp
  | call o k ih => exact ⟨hp.1, fun r hr => ⟨congrArg (Prog.bind · g) (hp.2 r hr).1, ih r (hp.2 r hr).2⟩⟩

theorem Prog.Tidy.mono {Q' : Bool → α → Prop} {p : Prog α} {b : Bool} (hp : p.Tidy c Q b) (hq : ∀ b a, Q b a → Q' b a) : p.Tidy c Q' b := by
  induction p generalizing b with
  | ret a => exact hq b a hp
  | call o k ih => exact ⟨hp.1, fun r hr => ⟨(hp.2 r hr).1, ih r (hp.2 r hr).2⟩⟩

end

/-- What the writer thinks is open. -/
def RW.isOpen (rw : RW) : Bool := decide (rw.file = some .opened)

/-- What holds of the writer between writes. -/
def Settled (c : RCfg) (b : Bool) (rw : RW) : Prop := b = rw.isOpen ∧ (rw.file = some .opened → rw.name = c.fileName)

theorem tidy_removeAll {ns : List Str} (h : ∀ n ∈ ns, c.mine n = true ∧ n ≠ c.fileName) (b : Bool) : (removeAll ns).Tidy c (fun b' _ => b' = b) b := by
  induction ns with
  | nil => rfl
  | cons n ns ih => exact ⟨h n (by simp), fun r _ => ⟨rfl, ih fun m hm => h m (by simp [hm])⟩⟩

theorem tidy_archive (ha : c.archive ≠ .none) (ns : List Str) (b : Bool) : (archiveUnexplodedLogs ns).Tidy c (fun b' _ => b' = b) b := by
  rw [archiveUnexplodedLogs]
  refine ⟨ha, fun r _ => ⟨rfl, ?_⟩⟩
  cases r with
  | false => rfl
  | true =>
    refine ⟨ha, fun r hr => ⟨rfl, ?_⟩⟩
    cases hr
    exact ⟨ha, fun r _ => ⟨rfl, ha, fun _ _ => ⟨rfl, rfl⟩⟩⟩

theorem tidy_deleteOldRolls (ha : c.archive = .none ∨ c.exploded = false) {ns : List Str} (h : ∀ n ∈ ns, c.mine n = true ∧ n ≠ c.fileName) (b : Bool) :
    (c.deleteOldRolls ns).Tidy c (fun b' _ => b' = b) b := by
  rw [RCfg.deleteOldRolls]
  split
  · rfl
  · dsimp only
    split
    · rfl
    · have hr := tidy_removeAll (ns := ns.take ((ns.length : Int) - c.maxRolls).toNat) (fun n hn => h n (List.mem_of_mem_take hn)) b
      split
      · rename_i hne
        refine ⟨trivial, fun _ _ => ⟨rfl, ?_⟩⟩
        show Prog.Tidy c _ b (if _ then _ else _)
        rw [if_neg (by rw [ha.resolve_left hne]; simp)]
        exact Prog.Tidy.bind (tidy_archive hne _ b) fun b' _ hb => by subst hb; exact hr
      · exact hr

theorem tidy_rollOver (ha : c.archive = .none ∨ c.exploded = false) {rw : RW} (hf : rw.file = none) (hn : rw.name = c.fileName) {hs : List Str}
    (hh : ∀ n ∈ hs, c.mine n = true ∧ n ≠ c.fileName) : (c.rollOver lib rw hs).Tidy c (fun b br => b = false ∧ br.2.file = none) false := by
  have key : ∀ tag (rw' : RW), TagOf c rw tag → rw'.file = none → rw'.name = rw.name →
      Prog.Tidy c (fun b (br : Bool × RW) => b = false ∧ br.2.file = none) false (do
        let newHistoryName := c.createFullFileName c.fileName tag
        if (← sys (.rename rw'.name newHistoryName)) = false then return (false, rw')
        let _ ← sys (.chmod newHistoryName c.backPerm)
        let history := hs ++ [newHistoryName]
        if (history.length : Int) > c.maxRolls then c.deleteOldRolls history
        return (true, rw')) := by
    intro tag rw' ht hf' he
    obtain ⟨ho, hne⟩ := mine_new ht
    rw [← createFull_eq] at ho hne
    refine ⟨⟨by rw [he]; exact hn, ho, hne, rfl⟩, fun b _ => ⟨rfl, ?_⟩⟩
    cases b with
    | false => exact ⟨rfl, hf'⟩
    | true =>
      refine ⟨⟨ho, hne⟩, fun _ _ => ⟨rfl, ?_⟩⟩
      show Prog.Tidy c _ false (if _ then _ else _)
      split
      · refine Prog.Tidy.bind (tidy_deleteOldRolls ha ?_ false) fun b _ hb => ⟨hb, hf'⟩
        intro n hn
        rcases List.mem_append.mp hn with hn | hn
        · exact hh n hn
        · simp only [List.mem_singleton] at hn; subst hn; exact ⟨ho, hne⟩
      · exact ⟨rfl, hf'⟩
  rw [RCfg.rollOver, RCfg.getNewHistoryRollFileName]
  cases hk : c.kind with
  | size max => exact key _ _ (by simp [TagOf, hk]; exact ⟨_, rfl⟩) hf rfl
  | time pat =>
    refine ⟨trivial, fun t _ => ⟨rfl, ?_⟩⟩
    exact key rw.timeName { rw with timeName := lib.format t pat } (by simp [TagOf, hk]) hf rfl

theorem tidy_roll (ha : c.archive = .none ∨ c.exploded = false) {rw : RW} {b : Bool} (h : Settled c b rw) : (c.roll lib rw).Tidy c (fun b br => b = false ∧ br.2.file ≠ some .opened) b := by
  obtain ⟨rfl, hn⟩ := h
  rw [RCfg.roll]
  split
  · rename_i hf; exact ⟨by simp [RW.isOpen, hf], by rw [hf]; simp⟩
  · rename_i hf; exact ⟨by simp [RW.isOpen, hf], by rw [hf]; simp⟩
  · rename_i hf
    refine ⟨⟨hn hf, by simp [RW.isOpen, hf]⟩, fun b _ => ⟨rfl, ?_⟩⟩
    cases b with
    | false => exact ⟨rfl, by simp⟩
    | true =>
      rw [RCfg.getSortedLogHistory]
      refine ⟨trivial, fun r _ => ?_⟩
      cases r with
      | none => exact ⟨rfl, rfl, by simp⟩
      | some names =>
        refine ⟨?_, ?_⟩
        · show Prog.bind (.ret (some (c.historyOf lib names))) _ = Prog.bind (.ret (some (c.historyOf lib (names.filter c.mine)))) _
          rw [historyOf_sift]
        · refine Prog.Tidy.mono (tidy_rollOver (rw := { rw with file := none }) (hs := c.historyOf lib names) (lib := lib) ha rfl (hn hf) (fun n hn => ?_)) ?_
          · obtain ⟨v, hv⟩ := mem_historyOf hn
            exact mine_backup hv
          · rintro b br ⟨h1, h2⟩; exact ⟨h1, by rw [h2]; simp⟩

theorem tidy_createFile {rw : RW} (hf : rw.file = none) : (c.createFile rw).Tidy c (fun b br => Settled c b br.2) false := by
  rw [RCfg.createFile]
  refine ⟨trivial, fun r _ => ⟨rfl, ?_⟩⟩
  cases r
  · exact ⟨by simp [RW.isOpen, hf, opens], by simp [hf]⟩
  · refine ⟨⟨rfl, rfl⟩, fun r _ => ⟨rfl, ?_⟩⟩
    cases r
    · exact ⟨rfl, by simp⟩
    · refine ⟨⟨rfl, rfl⟩, fun r _ => ⟨rfl, ?_⟩⟩
      cases r with
      | none => exact ⟨⟨rfl, rfl⟩, fun _ _ => ⟨rfl, rfl, by simp⟩⟩
      | some n => exact ⟨rfl, fun _ => rfl⟩

theorem tidy_needsToRoll {rw : RW} {b : Bool} (h : Settled c b rw) : (c.needsToRoll lib rw).Tidy c (fun b br => Settled c b br.2) b := by
  rw [RCfg.needsToRoll]
  cases c.kind with
  | size max => exact h
  | time pat =>
    refine ⟨trivial, fun t _ => ⟨rfl, ?_⟩⟩
    show Prog.Tidy c _ b (if _ then _ else _)
    split <;> exact h

theorem tidy_put {rw : RW} {bs : Bytes} {b : Bool} (h : Settled c b rw) : (RCfg.put rw bs).Tidy c (fun b br => Settled c b br.2) b := by
  rw [RCfg.put]
  split
  · rename_i hf
    exact ⟨⟨h.2 hf, by rw [h.1]; simp [RW.isOpen, hf]⟩, fun r _ => ⟨rfl, h⟩⟩
  · exact h

theorem tidy_append {rw : RW} {bs : Bytes} {b : Bool} (h : Settled c b rw) : (c.append rw bs).Tidy c (fun b br => Settled c b br.2) b := by
  rw [RCfg.append]
  split
  · rename_i hf
    have : b = false := by rw [h.1]; simp [RW.isOpen, hf]
    subst this
    refine Prog.Tidy.bind (tidy_createFile hf) ?_
    rintro b ⟨ok, rw2⟩ h2
    dsimp only at h2 ⊢
    split
    · exact h2
    · exact tidy_put h2
  · exact tidy_put h

theorem tidy_write (ha : c.archive = .none ∨ c.exploded = false) {rw : RW} {bs : Bytes} {b : Bool} (h : Settled c b rw) : (c.write lib rw bs).Tidy c (fun b br => Settled c b br.2) b := by
  rw [RCfg.write]
  refine Prog.Tidy.bind (tidy_needsToRoll h) ?_
  rintro b ⟨n, rw1⟩ h1
  dsimp only at h1 ⊢
  split
  · refine Prog.Tidy.bind (tidy_roll ha h1) ?_
    rintro b ⟨ok, rw2⟩ ⟨rfl, h2⟩
    dsimp only at h2 ⊢
    have hs : Settled c false rw2 := ⟨by simp [RW.isOpen, h2], fun h => absurd h h2⟩
    split
    · exact hs
    · exact tidy_append hs
  · exact tidy_append h1

/-! ## A writer's own files -/

/-- What of the directory concerns the writer, and what it has in its temporary file. -/
def Volume.own (v : Volume) (c : RCfg) (tmp : Option Entries := none) : Disk := { dir := fun n => if c.mine n = true then v.dir n else none, tmp := tmp }

theorem own_dir {v : Volume} {n : Str} {tmp : Option Entries} (h : c.mine n = true) : (v.own c tmp).dir n = v.dir n := by simp [Volume.own, h]

theorem own_put {v v' : Volume} {n : Str} {x : Option Node} {tmp : Option Entries} (hn : c.mine n = true) (h : ∀ m, c.mine m = true → v'.dir m = if m = n then x else v.dir m) :
    v'.own c tmp = (v.own c tmp).put n x := by
  simp only [Volume.own, Disk.put, Disk.mk.injEq, and_true]
  funext m
  by_cases hm : c.mine m = true
  · simp only [hm, if_true, h m hm]
  · have : m ≠ n := by rintro rfl; exact hm hn
    simp [hm, this]

theorem own_congr {v v' : Volume} {tmp : Option Entries} (h : ∀ m, c.mine m = true → v'.dir m = v.dir m) : v'.own c tmp = v.own c tmp := by
  simp only [Volume.own, Disk.mk.injEq, and_true]
  funext m
  by_cases hm : c.mine m = true
  · simp only [hm, if_true, h m hm]
  · simp [hm]

theorem dir_file {v : Volume} {n : Str} {k : Nat} (h : v.names n = some (.file k)) : v.dir n = some (.file (v.nodes k).1 (v.nodes k).2) := by simp [Volume.dir, h]

theorem dir_isFile {v : Volume} {n : Str} : (∃ data perm, v.dir n = some (.file data perm)) ↔ ∃ k, v.names n = some (.file k) := by
  constructor
  · rintro ⟨data, perm, h⟩
    rw [Volume.dir] at h
    split at h
    · cases h
    · cases h
    · rename_i k hk; exact ⟨k, hk⟩
  · rintro ⟨k, h⟩; exact ⟨_, _, dir_file h⟩

theorem dir_set {v : Volume} (hv : OneName v) {n : Str} {k : Nat} (h : v.names n = some (.file k)) (x : Bytes × Nat) (m : Str) :
    (v.set k x).dir m = if m = n then some (.file x.1 x.2) else v.dir m := by
  by_cases e : m = n
  · subst e; simp [Volume.dir, Volume.set, h]
  · simp only [if_neg e, Volume.dir, Volume.set]
    cases hm : v.names m with
    | none => rfl
    | some l =>
      cases l with
      | dir => rfl
      | file j =>
        have : j ≠ k := by rintro rfl; exact e (hv.one _ _ _ hm h)
        simp only [if_neg this]

theorem sound_set {v : Volume} (hv : OneName v) (k : Nat) (x : Bytes × Nat) : OneName (v.set k x) := ⟨hv.one, hv.new⟩

theorem dir_link_none (v : Volume) (n m : Str) : (v.link n none).dir m = if m = n then none else v.dir m := by
  simp only [Volume.dir, Volume.link]
  by_cases e : m = n <;> simp [e]

theorem sound_unlink {v : Volume} (hv : OneName v) (n : Str) : OneName (v.link n none) := by
  constructor
  · intro a b k h1 h2
    simp only [Volume.link] at h1 h2
    split at h1 <;> split at h2 <;> first | contradiction | exact hv.one _ _ _ h1 h2
  · intro a k h
    simp only [Volume.link] at h
    split at h
    · cases h
    · exact hv.new _ _ h

theorem sound_move {v : Volume} (hv : OneName v) {a b : Str} {k : Nat} (h : v.names a = some (.file k)) : OneName ((v.link a none).link b (some (.file k))) := by
  have only : ∀ x, (v.link a none).names x ≠ some (.file k) := by
    intro x
    simp only [Volume.link]
    split
    · simp
    · rename_i hx; intro e; exact hx (hv.one _ _ _ e h)
  constructor
  · intro x y j h1 h2
    simp only [Volume.link] at h1 h2
    by_cases hx : x = b
    · by_cases hy : y = b
      · rw [hx, hy]
      · simp only [hx, hy, if_true, if_false] at h1 h2
        cases h1
        exact absurd h2 (only y)
    · by_cases hy : y = b
      · simp only [hx, hy, if_true, if_false] at h1 h2
        cases h2
        exact absurd h1 (only x)
      · simp only [hx, hy, if_false] at h1 h2
        exact (sound_unlink hv a).one _ _ _ h1 h2
  · intro x j hx
    simp only [Volume.link] at hx
    split at hx
    · cases hx; exact hv.new _ _ h
    · exact (sound_unlink hv a).new _ _ hx

/-- The directory after a new file was made. -/
def Volume.create (v : Volume) (n : Str) (p : Nat) : Volume := { (v.link n (some (.file v.next))).set v.next ([], p) with next := v.next + 1 }

theorem dir_create {v : Volume} (hv : OneName v) (n : Str) (p : Nat) (m : Str) : (v.create n p).dir m = if m = n then some (.file [] p) else v.dir m := by
  simp only [Volume.dir, Volume.create, Volume.link, Volume.set]
  by_cases e : m = n
  · simp [e]
  · simp only [if_neg e]
    cases hm : v.names m with
    | none => rfl
    | some l =>
      cases l with
      | dir => rfl
      | file j =>
        have : j ≠ v.next := Nat.ne_of_lt (hv.new _ _ hm)
        simp only [if_neg this]

theorem sound_create {v : Volume} (hv : OneName v) (n : Str) (p : Nat) : OneName (v.create n p) := by
  constructor
  · intro a b k h1 h2
    simp only [Volume.create, Volume.link, Volume.set] at h1 h2
    by_cases ha : a = n <;> by_cases hb : b = n <;> simp only [ha, hb, if_true, if_false] at h1 h2
    · rw [ha, hb]
    · cases h1; exact absurd (hv.new _ _ h2) (Nat.lt_irrefl _)
    · cases h2; exact absurd (hv.new _ _ h1) (Nat.lt_irrefl _)
    · exact hv.one _ _ _ h1 h2
  · intro a k h
    simp only [Volume.create, Volume.link, Volume.set] at h ⊢
    split at h
    · cases h; omega
    · have := hv.new _ _ h; omega

theorem dir_move {v : Volume} {a b : Str} {k : Nat} (m : Str) :
    ((v.link a none).link b (some (.file k))).dir m = if m = b then some (.file (v.nodes k).1 (v.nodes k).2) else if m = a then none else v.dir m := by
  simp only [Volume.dir, Volume.link]
  by_cases e : m = b
  · simp [e]
  · by_cases e' : m = a
    · subst e'; simp [e]
    · simp [e, e']

/-- What the writer has open is the file at the name of its log file. -/
def Holding (c : RCfg) (b : Bool) (v : Volume) (h : Option Nat) : Prop := b = true → ∃ k, h = some k ∧ v.names c.fileName = some (.file k)

/-- The calls made for an archive. -/
def Sys.forArchive : Sys → Prop
  | .tmpCreate | .archRead | .tmpClose | .tmpRemove => True
  | _ => False

/-- A step of the writer, seen by itself, unless it is for an archive. -/
theorem own_step_log {b : Bool} {v v' : Volume} {h h' : Option Nat} {o : Sys} {r : o.Resp} (ho : ¬ o.forArchive) (hv : OneName v) (hm : c.may b o) (hh : Holding c b v h)
    (hs : VolStep umask v h o r v' h') {tmp : Option Entries} :
    SysStep umask (v.own c tmp) o (c.sift o r) (v'.own c tmp) ∧ OneName v' ∧ Holding c (opens b o r) v' h' := by
  have hcur := mine_current c
  cases o <;> simp only [RCfg.may] at hm <;> simp only [VolStep] at hs <;> simp only [opens]
  case mkdirAll p =>
    rw [show c.sift (.mkdirAll p) r = r from rfl]; simp only [SysStep]
    obtain ⟨rfl, rfl⟩ := hs; exact ⟨rfl, hv, hh⟩
  case openAppend n p =>
    rw [show c.sift (.openAppend n p) r = r from rfl]; simp only [SysStep]
    obtain ⟨rfl, rfl⟩ := hm
    by_cases hr : r = true
    · rw [if_pos hr] at hs ⊢
      rw [if_pos hr]
      rw [own_dir hcur]
      cases hn : v.names c.fileName with
      | none =>
        rw [hn] at hs
        obtain ⟨hpn, rfl, rfl⟩ := hs
        have hd : v.dir c.fileName = none := by simp [Volume.dir, hn]
        rw [hd]
        refine ⟨⟨hpn, own_put hcur fun m _ => dir_create hv _ _ m⟩, sound_create hv _ _, fun _ => ⟨_, rfl, ?_⟩⟩
        simp [Volume.link, Volume.set]
      | some l =>
        rw [hn] at hs
        cases l with
        | dir => exact hs.elim
        | file k =>
          obtain ⟨rfl, rfl⟩ := hs
          rw [dir_file hn]
          exact ⟨rfl, hv, fun _ => ⟨_, rfl, hn⟩⟩
    · rw [if_neg hr] at hs ⊢
      rw [if_neg hr]
      obtain ⟨rfl, rfl⟩ := hs
      exact ⟨rfl, hv, hh⟩
  case stat n =>
    rw [show c.sift (.stat n) r = r from rfl]; simp only [SysStep]
    obtain ⟨rfl, rfl⟩ := hm
    obtain ⟨rfl, rfl, hs⟩ := hs
    refine ⟨⟨rfl, ?_⟩, hv, hh⟩
    cases r with
    | none => trivial
    | some len =>
      obtain ⟨k, rfl, rfl⟩ := hs
      obtain ⟨k', e, hn⟩ := hh rfl
      cases e
      exact ⟨_, _, by rw [own_dir hcur, dir_file hn], rfl⟩
  case write n bs =>
    rw [show c.sift (.write n bs) r = r from rfl]; simp only [SysStep]
    obtain ⟨rfl, rfl⟩ := hm
    obtain ⟨rfl, k, rfl, h1, h2, rfl⟩ := hs
    obtain ⟨k', e, hn⟩ := hh rfl
    cases e
    exact ⟨⟨_, _, by rw [own_dir hcur, dir_file hn], h1, h2, own_put hcur fun m _ => dir_set hv hn _ m⟩, sound_set hv _ _, fun _ => ⟨k, rfl, hn⟩⟩
  case close n =>
    rw [show c.sift (.close n) r = r from rfl]; simp only [SysStep]
    obtain ⟨rfl, rfl⟩ := hs; exact ⟨rfl, hv, fun h => by cases h⟩
  case readdir =>
    simp only [RCfg.sift, SysStep]
    obtain ⟨rfl, rfl, hs⟩ := hs
    refine ⟨⟨rfl, ?_⟩, hv, hh⟩
    cases r with
    | none => trivial
    | some names =>
      obtain ⟨h1, h2⟩ := hs
      refine ⟨h1.filter _, fun n => ?_⟩
      rw [List.mem_filter, h2]
      by_cases hn : c.mine n = true
      · rw [own_dir hn, dir_isFile]; simp [hn]
      · simp [hn, Volume.own]
  case rename x y =>
    rw [show c.sift (.rename x y) r = r from rfl]; simp only [SysStep]
    obtain ⟨rfl, h1, h2, rfl⟩ := hm
    obtain ⟨rfl, hs⟩ := hs
    by_cases hr : r = true
    · rw [if_pos hr] at hs ⊢
      obtain ⟨k, h3, ⟨h4, hpn⟩, h5, rfl⟩ := hs
      refine ⟨⟨_, _, by rw [own_dir hcur, dir_file h3], ⟨?_, hpn⟩, h5, ?_⟩, sound_move hv h3, fun h => by cases h⟩
      · rw [own_dir h1]
        intro e
        apply h4
        rw [Volume.dir] at e
        split at e
        · cases e
        · assumption
        · cases e
      · rw [← own_put hcur (v' := v.link c.fileName none) fun m _ => dir_link_none v _ m]
        refine own_put h1 fun m _ => ?_
        rw [dir_move, dir_link_none]
    · rw [if_neg hr] at hs ⊢
      subst hs
      exact ⟨rfl, hv, hh⟩
  case chmod n p =>
    rw [show c.sift (.chmod n p) r = r from rfl]; simp only [SysStep]
    obtain ⟨h1, h2⟩ := hm
    obtain ⟨rfl, hs⟩ := hs
    by_cases hr : r = true
    · rw [if_pos hr] at hs ⊢
      obtain ⟨k, h3, rfl⟩ := hs
      exact ⟨⟨_, _, by rw [own_dir h1, dir_file h3], own_put h1 fun m _ => dir_set hv h3 _ m⟩, sound_set hv _ _, hh⟩
    · rw [if_neg hr] at hs ⊢
      subst hs
      exact ⟨rfl, hv, hh⟩
  case remove n =>
    rw [show c.sift (.remove n) r = r from rfl]; simp only [SysStep]
    obtain ⟨h1, h2⟩ := hm
    obtain ⟨rfl, hs⟩ := hs
    by_cases hr : r = true
    · rw [if_pos hr] at hs ⊢
      rcases hs with ⟨h3, rfl⟩ | ⟨k, h3, rfl⟩
      · exact ⟨.inl ⟨by rw [own_dir h1]; simp [Volume.dir, h3], rfl⟩, hv, hh⟩
      · refine ⟨.inr ⟨_, _, by rw [own_dir h1, dir_file h3], own_put h1 fun m _ => dir_link_none v _ m⟩, sound_unlink hv n, fun hb => ?_⟩
        obtain ⟨j, h4, h5⟩ := hh hb
        exact ⟨j, h4, by simp only [Volume.link, if_neg (Ne.symm h2)]; exact h5⟩
    · rw [if_neg hr] at hs ⊢
      subst hs
      exact ⟨rfl, hv, hh⟩
  case now =>
    rw [show c.sift .now r = r from rfl]; simp only [SysStep]
    obtain ⟨rfl, rfl⟩ := hs; exact ⟨rfl, hv, hh⟩
  all_goals exact absurd trivial ho

/-- The directory for temporary files is there afterwards, if it was not before. -/
theorem temp_step {v v' : Volume} {h h' : Option Nat} {r : Bool} (hs : VolStep umask v h .tmpCreate r v' h') :
    h' = h ∧ (v' = v ∨ v.names tempDir = none ∧ v' = v.link tempDir (some .dir)) := by
  simp only [VolStep] at hs
  refine ⟨hs.1, ?_⟩
  have hs := hs.2
  split at hs
  · split at hs
    · exact .inr ⟨by assumption, hs⟩
    · exact .inl hs
    · exact hs.elim
  · exact hs

theorem temp_sound {v : Volume} (hv : OneName v) : OneName (v.link tempDir (some .dir)) := by
  constructor
  · intro a b k h1 h2
    simp only [Volume.link] at h1 h2
    split at h1 <;> split at h2 <;> first | cases h1 | cases h2 | exact hv.one _ _ _ h1 h2
  · intro a k h
    simp only [Volume.link] at h
    split at h
    · cases h
    · exact hv.new _ _ h

theorem temp_names {v : Volume} (hn : v.names tempDir = none) {n : Str} {k : Nat} (h : v.names n = some (.file k)) : (v.link tempDir (some .dir)).names n = some (.file k) := by
  have : n ≠ tempDir := by rintro rfl; rw [hn] at h; cases h
  simp only [Volume.link, if_neg this, h]

theorem temp_dir {v : Volume} {n : Str} (h : n ≠ tempDir) : (v.link tempDir (some .dir)).dir n = v.dir n := by
  simp only [Volume.dir, Volume.link, if_neg h]

/-- A step of the writer, seen by itself. -/
theorem own_step {b : Bool} {v v' : Volume} {h h' : Option Nat} {o : Sys} {r : o.Resp} (hv : OneName v) (hm : c.may b o) (hh : Holding c b v h)
    (hs : VolStep umask v h o r v' h') :
    ((c.archive ≠ .none → ¬ c.mine tempDir = true) → ∀ tmp, ∃ tmp', SysStep umask (v.own c tmp) o (c.sift o r) (v'.own c tmp')) ∧
      OneName v' ∧ Holding c (opens b o r) v' h' := by
  by_cases ho : o.forArchive
  · cases o <;> simp only [Sys.forArchive] at ho
    case tmpCreate =>
      obtain ⟨e, hw⟩ := temp_step hs
      clear hs
      subst e
      have hd : (c.archive ≠ .none → ¬ c.mine tempDir = true) → ∀ tmp, v'.own c tmp = v.own c tmp := by
        intro ht tmp
        rcases hw with rfl | ⟨_, rfl⟩
        · rfl
        · exact own_congr fun m hmm => temp_dir (by rintro rfl; exact ht hm hmm)
      refine ⟨fun ht tmp => ?_, ?_, ?_⟩
      · cases r with
        | false => exact ⟨tmp, by rw [hd ht]; simp [SysStep, RCfg.sift]⟩
        | true => exact ⟨some [], by rw [hd ht]; simp [SysStep, RCfg.sift, Volume.own]⟩
      · rcases hw with rfl | ⟨_, rfl⟩
        · exact hv
        · exact temp_sound hv
      · intro hb
        obtain ⟨k, h1, h2⟩ := hh hb
        rcases hw with rfl | ⟨hn, rfl⟩
        · exact ⟨k, h1, h2⟩
        · exact ⟨k, h1, temp_names hn h2⟩
    case archRead =>
      obtain ⟨rfl, rfl, rfl⟩ := hs
      exact ⟨fun _ tmp => ⟨tmp, rfl, trivial⟩, hv, hh⟩
    case tmpClose =>
      obtain ⟨rfl, rfl⟩ := hs
      exact ⟨fun _ tmp => ⟨tmp, rfl⟩, hv, hh⟩
    case tmpRemove =>
      obtain ⟨rfl, rfl⟩ := hs
      refine ⟨fun _ tmp => ?_, hv, hh⟩
      cases r with
      | false => exact ⟨tmp, by simp [SysStep, RCfg.sift]⟩
      | true => exact ⟨none, by simp [SysStep, RCfg.sift, Volume.own]⟩
  · have key := fun tmp => own_step_log ho hv hm hh hs (tmp := tmp)
    exact ⟨fun _ tmp => ⟨tmp, (key tmp).1⟩, (key none).2⟩

/-- A step of another writer leaves other entries alone, unless it makes the directory for temporary files. -/
theorem other_entry_log {c' : RCfg} {b : Bool} {v v' : Volume} {h h' : Option Nat} {o : Sys} {r : o.Resp} (hv : OneName v) (ho : o ≠ .tmpCreate) (hm : c'.may b o) (hh : Holding c' b v h)
    (hs : VolStep umask v h o r v' h') {m : Str} (hap : ¬ c'.mine m = true) :
    v'.dir m = v.dir m ∧ v'.names m = v.names m := by
  have ne : ∀ n, c'.mine n = true → m ≠ n := by rintro n h1 rfl; exact hap h1
  have hcur := mine_current c'
  have setter : ∀ n k x, c'.mine n = true → v.names n = some (.file k) → (v.set k x).dir m = v.dir m ∧ (v.set k x).names m = v.names m :=
    fun n k x h1 h2 => ⟨by rw [dir_set hv h2, if_neg (ne n h1)], rfl⟩
  cases o <;> simp only [RCfg.may] at hm <;> simp only [VolStep] at hs
  case mkdirAll p => obtain ⟨rfl, rfl⟩ := hs; exact ⟨rfl, rfl⟩
  case openAppend n p =>
    obtain ⟨rfl, rfl⟩ := hm
    by_cases hr : r = true
    · rw [if_pos hr] at hs
      cases hn : v.names c'.fileName with
      | none =>
        rw [hn] at hs
        obtain ⟨_, rfl, rfl⟩ := hs
        refine ⟨?_, ?_⟩
        · exact (dir_create hv _ _ m).trans (if_neg (ne _ hcur))
        · simp [Volume.link, Volume.set, ne _ hcur]
      | some l =>
        rw [hn] at hs
        cases l with
        | dir => exact hs.elim
        | file k => obtain ⟨rfl, rfl⟩ := hs; exact ⟨rfl, rfl⟩
    · rw [if_neg hr] at hs
      obtain ⟨rfl, rfl⟩ := hs
      exact ⟨rfl, rfl⟩
  case stat n => obtain ⟨rfl, rfl, _⟩ := hs; exact ⟨rfl, rfl⟩
  case write n bs =>
    obtain ⟨rfl, rfl⟩ := hm
    obtain ⟨rfl, k, rfl, h1, h2, rfl⟩ := hs
    obtain ⟨k', e, hn⟩ := hh rfl
    cases e
    exact setter _ _ _ hcur hn
  case close n => obtain ⟨rfl, rfl⟩ := hs; exact ⟨rfl, rfl⟩
  case readdir => obtain ⟨rfl, rfl, _⟩ := hs; exact ⟨rfl, rfl⟩
  case rename x y =>
    obtain ⟨rfl, h1, h2, rfl⟩ := hm
    obtain ⟨rfl, hs⟩ := hs
    by_cases hr : r = true
    · rw [if_pos hr] at hs
      obtain ⟨k, h3, h4, h5, rfl⟩ := hs
      refine ⟨?_, ?_⟩
      · rw [dir_move, if_neg (ne _ h1), if_neg (ne _ hcur)]
      · simp [Volume.link, ne _ hcur, ne _ h1]
    · rw [if_neg hr] at hs
      subst hs
      exact ⟨rfl, rfl⟩
  case chmod n p =>
    obtain ⟨rfl, hs⟩ := hs
    by_cases hr : r = true
    · rw [if_pos hr] at hs
      obtain ⟨k, h3, rfl⟩ := hs
      exact setter _ _ _ hm.1 h3
    · rw [if_neg hr] at hs
      subst hs
      exact ⟨rfl, rfl⟩
  case remove n =>
    obtain ⟨rfl, hs⟩ := hs
    by_cases hr : r = true
    · rw [if_pos hr] at hs
      rcases hs with ⟨h3, rfl⟩ | ⟨k, h3, rfl⟩
      · exact ⟨rfl, rfl⟩
      · refine ⟨?_, ?_⟩
        · rw [dir_link_none, if_neg (ne _ hm.1)]
        · simp [Volume.link, ne _ hm.1]
    · rw [if_neg hr] at hs
      subst hs
      exact ⟨rfl, rfl⟩
  case now => obtain ⟨rfl, rfl⟩ := hs; exact ⟨rfl, rfl⟩
  case tmpCreate => exact absurd rfl ho
  case archRead => obtain ⟨rfl, rfl, _⟩ := hs; exact ⟨rfl, rfl⟩
  case tmpClose => obtain ⟨rfl, rfl⟩ := hs; exact ⟨rfl, rfl⟩
  case tmpRemove => obtain ⟨rfl, rfl⟩ := hs; exact ⟨rfl, rfl⟩

/-- A step of another writer leaves other entries alone. -/
theorem other_entry {c' : RCfg} {b : Bool} {v v' : Volume} {h h' : Option Nat} {o : Sys} {r : o.Resp} (hv : OneName v) (hm : c'.may b o) (hh : Holding c' b v h)
    (hs : VolStep umask v h o r v' h') {m : Str} (hap : ¬ c'.mine m = true) (ht : c'.archive ≠ .none → m ≠ tempDir) :
    v'.dir m = v.dir m ∧ v'.names m = v.names m := by
  by_cases ho : o = .tmpCreate
  · subst ho
    rcases (temp_step hs).2 with rfl | ⟨_, rfl⟩
    · exact ⟨rfl, rfl⟩
    · exact ⟨temp_dir (ht hm), by simp only [Volume.link, if_neg (ht hm)]⟩
  · exact other_entry_log hv ho hm hh hs hap

/-- A step of another writer, seen by the writer. -/
theorem other_step {c' : RCfg} {b : Bool} {v v' : Volume} {h h' : Option Nat} {o : Sys} {r : o.Resp} (hv : OneName v) (hm : c'.may b o) (hh : Holding c' b v h)
    (hs : VolStep umask v h o r v' h') (hap : ∀ n, c.mine n = true → c'.mine n = true → False)
    (ht : c'.archive ≠ .none → ¬ c.mine tempDir = true) : (∀ tmp, v'.own c tmp = v.own c tmp) ∧ ∀ n, c.mine n = true → v'.names n = v.names n :=
  have key : ∀ m, c.mine m = true → v'.dir m = v.dir m ∧ v'.names m = v.names m :=
    fun m h => other_entry hv hm hh hs (fun h' => hap m h h') fun ha e => ht ha (e ▸ h)
  ⟨fun _ => own_congr fun m h => (key m h).1, fun m h => (key m h).2⟩

end Log4g
