import Verif.Lemmas.RollOps
import Verif.Lemmas.Map

/-! # A simulator, to exhibit runs -/

namespace Log4g
open Spec

/-- A disk given by lists. -/
structure LDisk where
  files : Map Str Node
  arch : Map Str ANode := []
  tmp : Option Entries := none
  deriving DecidableEq

namespace LDisk

def disk (L : LDisk) : Disk where
  dir n := L.files.get n
  arch n := (L.arch.get n).getD .absent
  tmp := L.tmp

/-- Another entry at `n`. -/
def put (L : LDisk) (n : Str) (x : Option Node) : LDisk :=
  let fs := L.files.filter fun y => y.1 ≠ n
  match x with
  | none => { L with files := fs }
  | some x => { L with files := (n, x) :: fs }

theorem get_filter (m : Map Str Node) (n k : Str) : Map.get (m.filter fun y => y.1 ≠ n) k = if k = n then none else m.get k := by
  induction m with
  | nil => simp
  | cons x m ih =>
    obtain ⟨k', v⟩ := x
    by_cases h : k' = n
    · subst h
      rw [List.filter_cons_of_neg (by simp), ih, Map.get]
      by_cases e : k = k'
      · simp [e]
      · simp [e, Ne.symm e]
    · rw [List.filter_cons_of_pos (by simpa using h), Map.get, ih, Map.get]
      by_cases e : k' = k
      · subst e; simp [h]
      · simp [e]

theorem disk_put (L : LDisk) (n : Str) (x : Option Node) : (L.put n x).disk = L.disk.put n x := by
  have : (L.put n x).disk.dir = (L.disk.put n x).dir := by
    funext k
    rw [put_dir]
    cases x with
    | none => simp only [put, disk, get_filter]
    | some x =>
      simp only [put, disk, Map.get, get_filter]
      by_cases h : n = k
      · simp [h]
      · simp [h, Ne.symm h]
  have h2 : (L.put n x).disk.arch = (L.disk.put n x).arch := by cases x <;> rfl
  have h3 : (L.put n x).disk.tmp = (L.disk.put n x).tmp := by cases x <;> rfl
  generalize (L.put n x).disk = a at *
  generalize L.disk.put n x = b at *
  cases a; cases b; simp_all

/-- The names of the regular files. -/
def regular (L : LDisk) : List Str := (L.files.filter fun x => match x.2 with | .file _ _ => true | .dir => false).map (·.1)

end LDisk

/-- How a call is answered; `fail` asks for a failure, `t` is the time. -/
def answer (umask : Nat) (fail : Bool) (t : Int) (L : LDisk) : (o : Sys) → Option (o.Resp × LDisk)
  | .mkdirAll _ => some (!fail, L)
  | .openAppend n p =>
    if fail then some (false, L)
    else match L.files.get n with
      | none => if properName n then some (true, L.put n (some (.file [] (p &&& (0o777 ^^^ (umask &&& 0o777)))))) else some (false, L)
      | some (.file _ _) => some (true, L)
      | some .dir => some (false, L)
  | .stat n =>
    if fail then some (none, L)
    else match L.files.get n with
      | some (.file data _) => some (some data.length, L)
      | _ => some (none, L)
  | .write n bs =>
    match L.files.get n with
    | some (.file data p) => if fail then some ((0, false), L.put n (some (.file (data ++ bs.take 0) p)))
      else some ((bs.length, true), L.put n (some (.file (data ++ bs.take bs.length) p)))
    | _ => none
  | .close _ => some (!fail, L)
  | .readdir => if fail ∨ ¬ L.files.keys.Nodup then some (none, L) else some (some L.regular, L)
  | .rename a b =>
    if fail then some (false, L)
    else match L.files.get a, L.files.get b with
      | some (.file _ _), some .dir => some (false, L)
      | some (.file data p), _ => if a = b ∨ properName b = false then some (false, L) else some (true, (L.put a none).put b (some (.file data p)))
      | _, _ => some (false, L)
  | .chmod n p =>
    if fail then some (false, L)
    else match L.files.get n with
      | some (.file data _) => some (true, L.put n (some (.file data p)))
      | _ => some (false, L)
  | .remove n =>
    if fail then some (false, L)
    else match L.files.get n with
      | none => some (true, L)
      | some (.file _ _) => some (true, L.put n none)
      | some .dir => some (false, L)
  | .now => some (t, L)
  | .tmpCreate => if fail then some (false, L) else some (true, { L with tmp := some [] })
  | .archRead =>
    if fail then some (.failed, L)
    else match L.arch.get [] with
      | none => some (.absent, L)
      | some (.file es) => some (.entries es, L)
      | _ => some (.failed, L)
  | .rollRead n =>
    if fail then some (none, L)
    else match L.files.get n with
      | some (.file data _) => some (some data, L)
      | _ => some (none, L)
  | .tmpEntry n bs =>
    if fail then some (false, L)
    else match L.tmp with
      | some es => some (true, { L with tmp := some (es ++ [(n, bs)]) })
      | none => some (false, L)
  | .tmpClose => some (!fail, L)
  | .tmpRename to =>
    if fail then some (false, L)
    else match L.tmp, L.arch.get to with
      | some _, some .dir => some (false, L)
      | some es, _ => some (true, { L with tmp := none, arch := (to, .file es) :: L.arch })
      | none, _ => some (false, L)
  | .tmpRemove => if fail then some (false, L) else some (true, { L with tmp := none })

theorem answer_ok {umask : Nat} {fail : Bool} {t : Int} {L L' : LDisk} {o : Sys} {r : o.Resp} (h : answer umask fail t L o = some (r, L')) :
    SysStep umask L.disk o r L'.disk := by
  cases o <;> simp only [answer] at h
  case mkdirAll => cases h; rfl
  case close => cases h; rfl
  case now => cases h; rfl
  case tmpClose => cases h; rfl
  case openAppend n p =>
    split at h
    · cases h; simp [SysStep]
    · split at h <;> rename_i e
      · split at h
        · rename_i hp
          cases h; simp [SysStep, LDisk.disk_put, e, hp, show L.disk.dir n = L.files.get n from rfl]
        · cases h; simp [SysStep]
      · cases h; simp [SysStep, e, show L.disk.dir n = L.files.get n from rfl]
      · cases h; simp [SysStep]
  case stat n =>
    split at h
    · cases h; simp [SysStep]
    · split at h
      · rename_i data p e
        cases h; exact ⟨rfl, data, p, e, rfl⟩
      · cases h; exact ⟨rfl, trivial⟩
  case write n bs =>
    split at h
    · rename_i data p e
      split at h
      · cases h
        exact ⟨data, p, e, Nat.zero_le _, by simp, by rw [LDisk.disk_put]⟩
      · cases h
        exact ⟨data, p, e, Nat.le_refl _, by simp, by rw [LDisk.disk_put]⟩
    · cases h
  case readdir =>
    split at h
    · cases h; exact ⟨rfl, trivial⟩
    · rename_i hc
      simp only [not_or, Decidable.not_not] at hc
      cases h
      have hnd : (L.files.map (·.1)).Nodup := hc.2
      refine ⟨rfl, ?_, ?_⟩
      · rw [List.nodup_iff_pairwise_ne, List.pairwise_map] at hnd
        rw [LDisk.regular, List.nodup_iff_pairwise_ne, List.pairwise_map]
        exact hnd.filter _
      · intro n
        simp only [LDisk.regular, List.mem_map, List.mem_filter]
        constructor
        · rintro ⟨⟨k, v⟩, ⟨hm, hf⟩, rfl⟩
          cases v with
          | dir => cases hf
          | file data p => exact ⟨data, p, Map.get_of_mem hc.2 hm⟩
        · rintro ⟨data, p, e⟩
          exact ⟨(n, .file data p), ⟨Map.mem_of_get e, rfl⟩, rfl⟩
  case rename a b =>
    split at h
    · cases h; simp [SysStep]
    · split at h
      · cases h; simp [SysStep]
      · rename_i data p ea eb
        split at h
        · cases h; simp [SysStep]
        · rename_i hne
          cases h
          simp only [SysStep, if_true]
          simp only [not_or, Bool.not_eq_false] at hne
          exact ⟨data, p, ea, ⟨fun hd => eb hd, hne.2⟩, hne.1, by rw [LDisk.disk_put, LDisk.disk_put]⟩
      · cases h; simp [SysStep]
  case chmod n p =>
    split at h
    · cases h; simp [SysStep]
    · split at h
      · rename_i data q e
        cases h; simp only [SysStep, if_true]
        exact ⟨data, q, e, by rw [LDisk.disk_put]⟩
      · cases h; simp [SysStep]
  case remove n =>
    split at h
    · cases h; simp [SysStep]
    · split at h
      · rename_i e
        cases h; simp only [SysStep, if_true]
        exact .inl ⟨e, trivial⟩
      · rename_i data p e
        cases h; simp only [SysStep, if_true]
        exact .inr ⟨data, p, e, by rw [LDisk.disk_put]⟩
      · cases h; simp [SysStep]
  case tmpCreate => split at h <;> cases h <;> simp [SysStep, LDisk.disk]
  case archRead =>
    split at h
    · cases h; simp [SysStep]
    · split at h <;> rename_i e <;> cases h <;> first | exact ⟨rfl, by simp [LDisk.disk, e]⟩ | exact ⟨rfl, trivial⟩
  case rollRead n =>
    split at h
    · cases h; simp [SysStep]
    · split at h
      · rename_i data p e
        cases h; exact ⟨rfl, p, e⟩
      · cases h; exact ⟨rfl, trivial⟩
  case tmpEntry n bs =>
    split at h
    · cases h; simp [SysStep]
    · split at h <;> rename_i e <;> cases h <;> simp [SysStep, LDisk.disk, e]
  case tmpRename to =>
    split at h
    · cases h; simp [SysStep]
    · split at h
      · cases h; simp [SysStep]
      · rename_i es e1 e2
        cases h
        simp only [SysStep, if_true]
        refine ⟨es, e1, ?_, ?_⟩
        · show (L.arch.get to).getD .absent ≠ .dir
          intro hd
          cases he : L.arch.get to with
          | none => rw [he] at hd; cases hd
          | some x => rw [he] at hd; simp only [Option.getD_some] at hd; subst hd; exact e2 he
        · simp only [LDisk.disk]
          congr 1
          funext n
          simp only [Map.get]
          by_cases hh : to = n
          · simp [hh]
          · simp [hh, Ne.symm hh]
      · cases h; simp [SysStep]
  case tmpRemove => split at h <;> cases h <;> simp [SysStep, LDisk.disk]

/-- Run a program; `os i` says about the `i`-th call whether it fails and what the time is. -/
def simulate {α : Type} (umask : Nat) (os : Nat → Bool × Int) : Prog α → Nat → LDisk → Option (α × STrace × LDisk)
  | .ret a, _, L => some (a, [], L)
  | .call o k, i, L => do
    let (r, L') ← answer umask (os i).1 (os i).2 L o
    let (a, tr, L'') ← simulate umask os (k r) (i + 1) L'
    return (a, ⟨o, r⟩ :: tr, L'')

theorem simulate_runs {α : Type} {umask : Nat} {os : Nat → Bool × Int} {p : Prog α} {i : Nat} {L L' : LDisk} {a : α} {tr : STrace}
    (h : simulate umask os p i L = some (a, tr, L')) : Runs umask p L.disk tr a L'.disk := by
  induction p generalizing i L tr with
  | ret b => simp only [simulate, Option.some.injEq, Prod.mk.injEq] at h; obtain ⟨rfl, rfl, rfl⟩ := h; exact .ret
  | call o k ih =>
    rw [simulate] at h
    simp only [Option.bind_eq_bind] at h
    obtain ⟨⟨r, L1⟩, h1, h2⟩ := Option.bind_eq_some_iff.mp h
    obtain ⟨⟨b, tr1, L2⟩, h3, h4⟩ := Option.bind_eq_some_iff.mp h2
    simp only [pure, Option.some.injEq, Prod.mk.injEq] at h4
    obtain ⟨rfl, rfl, rfl⟩ := h4
    exact .call (answer_ok h1) (ih r h3)

/-- Write messages one after the other; the `j`-th with the answers `os j`. -/
def simWrites (umask : Nat) (lib : RLib) (c : RCfg) (os : Nat → Nat → Bool × Int) : List Bytes → Nat → RW → LDisk → Option (List (Nat × Bool) × STrace × RW × LDisk)
  | [], _, rw, L => some ([], [], rw, L)
  | m :: ms, j, rw, L => do
    let ((res, rw'), tr, L') ← simulate umask (os j) (c.write lib rw m) 0 L
    let (ress, tr', rw'', L'') ← simWrites umask lib c os ms (j + 1) rw' L'
    return (res :: ress, tr ++ tr', rw'', L'')

theorem simWrites_life {umask : Nat} {lib : RLib} {c : RCfg} {os : Nat → Nat → Bool × Int} {ms : List Bytes} {j : Nat} {rw rw' : RW} {L L' : LDisk}
    {ress : List (Nat × Bool)} {d0 : Disk} {tr tr' : STrace} (hl : Life umask lib c d0 tr L.disk rw)
    (h : simWrites umask lib c os ms j rw L = some (ress, tr', rw', L')) : Life umask lib c d0 (tr ++ tr') L'.disk rw' := by
  induction ms generalizing j rw L tr tr' ress with
  | nil =>
    simp only [simWrites, Option.some.injEq, Prod.mk.injEq] at h
    obtain ⟨_, rfl, rfl, rfl⟩ := h
    simpa using hl
  | cons m ms ih =>
    rw [simWrites] at h
    simp only [Option.bind_eq_bind] at h
    obtain ⟨⟨⟨res, rw1⟩, tr1, L1⟩, h1, h2⟩ := Option.bind_eq_some_iff.mp h
    obtain ⟨⟨ress', tr2, rw2, L2⟩, h3, h4⟩ := Option.bind_eq_some_iff.mp h2
    simp only [pure, Option.some.injEq, Prod.mk.injEq] at h4
    obtain ⟨rfl, rfl, rfl, rfl⟩ := h4
    rw [← List.append_assoc]
    exact ih (.write hl (simulate_runs h1)) h3

theorem simWrites_session {umask : Nat} {lib : RLib} {c : RCfg} {os : Nat → Nat → Bool × Int} {ms ms0 : List Bytes} {j : Nat} {rw rw' : RW} {L L' : LDisk}
    {ress : List (Nat × Bool)} {d0 : Disk} {tr tr' : STrace} (hl : Session umask lib c d0 ms0 tr L.disk rw)
    (h : simWrites umask lib c os ms j rw L = some (ress, tr', rw', L')) : Session umask lib c d0 (ms0 ++ ms) (tr ++ tr') L'.disk rw' := by
  induction ms generalizing j rw L tr tr' ress ms0 with
  | nil =>
    simp only [simWrites, Option.some.injEq, Prod.mk.injEq] at h
    obtain ⟨_, rfl, rfl, rfl⟩ := h
    simpa using hl
  | cons m ms ih =>
    rw [simWrites] at h
    simp only [Option.bind_eq_bind] at h
    obtain ⟨⟨⟨res, rw1⟩, tr1, L1⟩, h1, h2⟩ := Option.bind_eq_some_iff.mp h
    obtain ⟨⟨ress', tr2, rw2, L2⟩, h3, h4⟩ := Option.bind_eq_some_iff.mp h2
    simp only [pure, Option.some.injEq, Prod.mk.injEq] at h4
    obtain ⟨rfl, rfl, rfl, rfl⟩ := h4
    rw [← List.append_assoc, show ms0 ++ m :: ms = ms0 ++ [m] ++ ms by simp]
    exact ih (.write hl (simulate_runs h1)) h3

/-- What the simulator delivers, with the proof that there is something. -/
structure SimRun (umask : Nat) (lib : RLib) (c : RCfg) (os : Nat → Nat → Bool × Int) (ms : List Bytes) (L : LDisk) where
  ress : List (Nat × Bool)
  tr : STrace
  rw : RW
  L' : LDisk
  eq : simWrites umask lib c os ms 0 {} L = some (ress, tr, rw, L')

theorem SimRun.session {umask : Nat} {lib : RLib} {c : RCfg} {os : Nat → Nat → Bool × Int} {ms : List Bytes} {L : LDisk} (r : SimRun umask lib c os ms L) :
    Session umask lib c L.disk ms r.tr r.L'.disk r.rw := by simpa using simWrites_session .start r.eq

theorem SimRun.life {umask : Nat} {lib : RLib} {c : RCfg} {os : Nat → Nat → Bool × Int} {ms : List Bytes} {L : LDisk} (r : SimRun umask lib c os ms L) :
    Life umask lib c L.disk r.tr r.L'.disk r.rw := by simpa using simWrites_life .start r.eq

/-- Run the simulator. -/
def simRun (umask : Nat) (lib : RLib) (c : RCfg) (os : Nat → Nat → Bool × Int) (ms : List Bytes) (L : LDisk)
    (h : (simWrites umask lib c os ms 0 {} L).isSome = true) : SimRun umask lib c os ms L where
  ress := ((simWrites umask lib c os ms 0 {} L).get h).1
  tr := ((simWrites umask lib c os ms 0 {} L).get h).2.1
  rw := ((simWrites umask lib c os ms 0 {} L).get h).2.2.1
  L' := ((simWrites umask lib c os ms 0 {} L).get h).2.2.2
  eq := (Option.some_get h).symm

/-- What the simulator delivers for one write. -/
structure SimWrite (umask : Nat) (lib : RLib) (c : RCfg) (os : Nat → Bool × Int) (m : Bytes) (rw : RW) (L : LDisk) where
  res : Nat × Bool
  rw' : RW
  tr : STrace
  L' : LDisk
  eq : simulate umask os (c.write lib rw m) 0 L = some ((res, rw'), tr, L')

theorem SimWrite.runs {umask : Nat} {lib : RLib} {c : RCfg} {os : Nat → Bool × Int} {m : Bytes} {rw : RW} {L : LDisk} (r : SimWrite umask lib c os m rw L) :
    Runs umask (c.write lib rw m) L.disk r.tr (r.res, r.rw') r.L'.disk := simulate_runs r.eq

/-- Simulate one write. -/
def simWrite (umask : Nat) (lib : RLib) (c : RCfg) (os : Nat → Bool × Int) (m : Bytes) (rw : RW) (L : LDisk)
    (h : (simulate umask os (c.write lib rw m) 0 L).isSome = true) : SimWrite umask lib c os m rw L where
  res := ((simulate umask os (c.write lib rw m) 0 L).get h).1.1
  rw' := ((simulate umask os (c.write lib rw m) 0 L).get h).1.2
  tr := ((simulate umask os (c.write lib rw m) 0 L).get h).2.1
  L' := ((simulate umask os (c.write lib rw m) 0 L).get h).2.2
  eq := (Option.some_get h).symm

/-- Run a program for at most `fuel` calls. -/
def simCut {α : Type} (umask : Nat) (os : Nat → Bool × Int) : Nat → Prog α → Nat → LDisk → Option (STrace × LDisk)
  | 0, _, _, L => some ([], L)
  | _ + 1, .ret _, _, L => some ([], L)
  | f + 1, .call o k, i, L => do
    let (r, L') ← answer umask (os i).1 (os i).2 L o
    let (tr, L'') ← simCut umask os f (k r) (i + 1) L'
    return (⟨o, r⟩ :: tr, L'')

theorem simCut_stops {α : Type} {umask : Nat} {os : Nat → Bool × Int} {fuel : Nat} {p : Prog α} {i : Nat} {L L' : LDisk} {tr : STrace}
    (h : simCut umask os fuel p i L = some (tr, L')) : Stops umask p L.disk tr L'.disk := by
  induction fuel generalizing p i L tr with
  | zero => simp only [simCut, Option.some.injEq, Prod.mk.injEq] at h; obtain ⟨rfl, rfl⟩ := h; exact .here
  | succ f ih =>
    cases p with
    | ret b => simp only [simCut, Option.some.injEq, Prod.mk.injEq] at h; obtain ⟨rfl, rfl⟩ := h; exact .here
    | call o k =>
      rw [simCut] at h
      simp only [Option.bind_eq_bind] at h
      obtain ⟨⟨r, L1⟩, h1, h2⟩ := Option.bind_eq_some_iff.mp h
      obtain ⟨⟨tr1, L2⟩, h3, h4⟩ := Option.bind_eq_some_iff.mp h2
      simp only [pure, Option.some.injEq, Prod.mk.injEq] at h4
      obtain ⟨rfl, rfl⟩ := h4
      exact .call (answer_ok h1) (ih h3)

/-- What the simulator delivers for a write cut off. -/
structure SimStop (umask : Nat) (lib : RLib) (c : RCfg) (os : Nat → Bool × Int) (fuel : Nat) (m : Bytes) (rw : RW) (L : LDisk) where
  tr : STrace
  L' : LDisk
  eq : simCut umask os fuel (c.write lib rw m) 0 L = some (tr, L')

theorem SimStop.stops {umask : Nat} {lib : RLib} {c : RCfg} {os : Nat → Bool × Int} {fuel : Nat} {m : Bytes} {rw : RW} {L : LDisk} (r : SimStop umask lib c os fuel m rw L) :
    Stops umask (c.write lib rw m) L.disk r.tr r.L'.disk := simCut_stops r.eq

/-- Simulate a write cut off after some calls. -/
def simStop (umask : Nat) (lib : RLib) (c : RCfg) (os : Nat → Bool × Int) (fuel : Nat) (m : Bytes) (rw : RW) (L : LDisk)
    (h : (simCut umask os fuel (c.write lib rw m) 0 L).isSome = true) : SimStop umask lib c os fuel m rw L where
  tr := ((simCut umask os fuel (c.write lib rw m) 0 L).get h).1
  L' := ((simCut umask os fuel (c.write lib rw m) 0 L).get h).2
  eq := (Option.some_get h).symm

/-- Everything works. -/
def allWell : Nat → Nat → Bool × Int := fun _ _ => (false, 0)

/-- Put `x` into its place. -/
def insertBy (key : Str → Int) (x : Str) : List Str → List Str
  | [] => [x]
  | y :: ys => if key x ≤ key y then x :: y :: ys else y :: insertBy key x ys

/-- Insertion sort. -/
def sortBy (key : Str → Int) : List Str → List Str
  | [] => []
  | x :: xs => insertBy key x (sortBy key xs)

theorem insertBy_perm (key : Str → Int) (x : Str) (ys : List Str) : (insertBy key x ys).Perm (x :: ys) := by
  induction ys with
  | nil => exact .refl _
  | cons y ys ih =>
    rw [insertBy]
    split
    · exact .refl _
    · exact (List.Perm.cons y ih).trans (.swap x y ys)

theorem sortBy_perm (key : Str → Int) (xs : List Str) : (sortBy key xs).Perm xs := by
  induction xs with
  | nil => exact .refl _
  | cons x xs ih => exact (insertBy_perm key x _).trans (.cons x ih)

theorem insertBy_sorted (key : Str → Int) (x : Str) {ys : List Str} (h : ys.Pairwise fun a b => key a ≤ key b) :
    (insertBy key x ys).Pairwise fun a b => key a ≤ key b := by
  induction ys with
  | nil => simp [insertBy]
  | cons y ys ih =>
    obtain ⟨h1, h2⟩ := List.pairwise_cons.mp h
    rw [insertBy]
    split
    · rename_i hle
      refine List.pairwise_cons.mpr ⟨?_, h⟩
      intro z hz
      rcases List.mem_cons.mp hz with rfl | hz
      · exact hle
      · exact Int.le_trans hle (h1 z hz)
    · rename_i hle
      refine List.pairwise_cons.mpr ⟨?_, ih h2⟩
      intro z hz
      rcases List.mem_cons.mp ((insertBy_perm key x ys).mem_iff.mp hz) with rfl | hz
      · omega
      · exact h1 z hz

theorem sortBy_sorted (key : Str → Int) (xs : List Str) : (sortBy key xs).Pairwise fun a b => key a ≤ key b := by
  induction xs with
  | nil => simp [sortBy]
  | cons x xs ih => exact insertBy_sorted key x ih

/-- A sample library: the format of an instant is its number. -/
def demoRLib : RLib where
  format t _ := Strconv.itoa t
  parse _ s := if (Strconv.atoi s).2 = none then some (Strconv.atoi s).1 else none
  zero := 0
  sort := sortBy
  sort_perm := sortBy_perm
  sort_sorted := sortBy_sorted

/-- A sample writer. -/
def demoRCfg : RCfg := { fileName := c!"log", kind := .size 2, maxRolls := 2 }

def demoDisk0 : LDisk := { files := [(c!"log.7", .file [9] 0o444), (c!"log", .file [1] 0o600), (c!"other", .file [5] 0o600)] }


end Log4g
