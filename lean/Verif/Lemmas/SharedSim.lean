import Verif.Spec.Shared
import Verif.Lemmas.RollSim

/-! # A simulator of several writers in one directory, to exhibit runs -/

namespace Log4g
open Spec

/-- A directory given by lists. -/
structure LVol where
  names : Map Str Link
  nodes : List (Bytes × Nat)
  deriving DecidableEq

namespace LVol

def vol (L : LVol) : Volume where
  names n := L.names.get n
  nodes k := (L.nodes[k]?).getD ([], 0)
  next := L.nodes.length

/-- Another entry at `n`. -/
def link (L : LVol) (n : Str) (x : Option Link) : LVol :=
  let fs := L.names.filter fun y => y.1 ≠ n
  match x with
  | none => { L with names := fs }
  | some x => { L with names := (n, x) :: fs }

theorem get_filter (m : Map Str Link) (n k : Str) : Map.get (m.filter fun y => y.1 ≠ n) k = if k = n then none else m.get k := by
  induction m with
  | nil => simp
  | cons x m ih =>
    obtain ⟨k', v⟩ := x
    by_cases h : k' = n
    · subst h
      rw [List.filter_cons_of_neg (by simp), ih, Map.get]
      by_cases e : k = k'
      · simp [e]
      · simp [e, Ne.symm e]
    · rw [List.filter_cons_of_pos (by simpa using h), Map.get, ih, Map.get]
      by_cases e : k' = k
      · subst e; simp [h]
      · simp [e]

theorem vol_link (L : LVol) (n : Str) (x : Option Link) : (L.link n x).vol = L.vol.link n x := by
  cases x with
  | none => simp only [link, vol, Volume.link, get_filter]
  | some x =>
    simp only [link, vol, Volume.link, Map.get, get_filter, Volume.mk.injEq, and_true]
    funext k
    by_cases h : n = k
    · simp [h]
    · simp [h, Ne.symm h]

/-- Another content of file `k`. -/
def set (L : LVol) (k : Nat) (x : Bytes × Nat) : LVol := { L with nodes := L.nodes.set k x }

theorem vol_set (L : LVol) {k : Nat} (x : Bytes × Nat) (hk : k < L.nodes.length) : (L.set k x).vol = L.vol.set k x := by
  simp only [set, vol, Volume.set, List.length_set, Volume.mk.injEq, and_true, true_and]
  funext j
  by_cases h : j = k
  · subst h; simp [hk]
  · simp [h, List.getElem?_set_ne (Ne.symm h)]

/-- A new file. -/
def create (L : LVol) (n : Str) (p : Nat) : LVol := { L.link n (some (.file L.nodes.length)) with nodes := L.nodes ++ [([], p)] }

theorem vol_create (L : LVol) (n : Str) (p : Nat) :
    (L.create n p).vol = { (L.vol.link n (some (.file L.vol.next))).set L.vol.next ([], p) with next := L.vol.next + 1 } := by
  have h := congrArg Volume.names (vol_link L n (some (.file L.nodes.length)))
  simp only [create, vol, Volume.set, Volume.link, Volume.mk.injEq, List.length_append, List.length_singleton, and_true] at h ⊢
  refine ⟨h, ?_⟩
  funext j
  by_cases e : j = L.nodes.length
  · subst e; simp
  · by_cases l : j < L.nodes.length
    · simp [e, List.getElem?_append_left l]
    · rw [List.getElem?_eq_none (by simp; omega), List.getElem?_eq_none (by omega)]
      exact (if_neg (c := j = L.vol.next) e).symm

def regular (L : LVol) : List Str := (L.names.filter fun x => match x.2 with | .file _ => true | .dir => false).map (·.1)

/-- The names and contents of the regular files. -/
def contents (L : LVol) : List (Str × Bytes) := L.names.filterMap fun x => match x.2 with | .file k => some (x.1, ((L.nodes[k]?).getD ([], 0)).1) | .dir => none

end LVol

/-- How a call is answered when nothing fails without reason. -/
def volAnswer (umask : Nat) (t : Int) (L : LVol) (h : Option Nat) : (o : Sys) → Option (o.Resp × LVol × Option Nat)
  | .mkdirAll _ => some (true, L, h)
  | .openAppend n p =>
    match L.names.get n with
    | none => if properName n then some (true, L.create n (p &&& (0o777 ^^^ (umask &&& 0o777))), some L.nodes.length) else some (false, L, h)
    | some (.file k) => some (true, L, some k)
    | some .dir => some (false, L, h)
  | .stat _ =>
    match h with
    | some k => some (some (L.vol.nodes k).1.length, L, h)
    | none => some (none, L, h)
  | .write _ bs =>
    match h with
    | some k => if k < L.nodes.length then some ((bs.length, true), L.set k ((L.vol.nodes k).1 ++ bs.take bs.length, (L.vol.nodes k).2), h) else none
    | none => none
  | .close _ => some (true, L, none)
  | .readdir => if L.names.keys.Nodup then some (some L.regular, L, h) else some (none, L, h)
  | .rename a b =>
    match L.names.get a, L.names.get b with
    | some (.file _), some .dir => some (false, L, h)
    | some (.file k), _ => if a = b ∨ properName b = false then some (false, L, h) else some (true, (L.link a none).link b (some (.file k)), h)
    | _, _ => some (false, L, h)
  | .chmod n p =>
    match L.names.get n with
    | some (.file k) => if k < L.nodes.length then some (true, L.set k ((L.vol.nodes k).1, p), h) else some (false, L, h)
    | _ => some (false, L, h)
  | .remove n =>
    match L.names.get n with
    | none => some (true, L, h)
    | some (.file _) => some (true, L.link n none, h)
    | some .dir => some (false, L, h)
  | .now => some (t, L, h)
  | .tmpCreate =>
    match L.names.get tempDir with
    | none => some (true, L.link tempDir (some .dir), h)
    | some .dir => some (true, L, h)
    | some (.file _) => some (false, L, h)
  | .archRead => some (.failed, L, h)
  | .tmpClose => some (true, L, h)
  | .tmpRemove => some (true, L, h)
  | _ => none

theorem volAnswer_ok {umask : Nat} {t : Int} {L L' : LVol} {h h' : Option Nat} {o : Sys} {r : o.Resp} (e : volAnswer umask t L h o = some (r, L', h')) :
    VolStep umask L.vol h o r L'.vol h' := by
  cases o <;> simp only [volAnswer] at e
  case mkdirAll => cases e; exact ⟨rfl, rfl⟩
  case close => cases e; exact ⟨rfl, rfl⟩
  case now => cases e; exact ⟨rfl, rfl⟩
  case openAppend n p =>
    split at e
    · rename_i hn
      split at e
      · rename_i hp
        cases e
        simp only [VolStep, if_true]
        rw [show L.vol.names n = none from hn]
        exact ⟨hp, LVol.vol_create _ _ _, rfl⟩
      · cases e; simp only [VolStep]; simp
    · rename_i k hn
      cases e
      simp only [VolStep, if_true]
      rw [show L.vol.names n = some (.file _) from hn]
      simp
    · cases e; simp only [VolStep]; simp
  case stat n =>
    split at e
    · cases e; exact ⟨rfl, rfl, _, rfl, rfl⟩
    · cases e; exact ⟨rfl, rfl, trivial⟩
  case write n bs =>
    split at e
    · rename_i k
      split at e
      · rename_i hk
        cases e
        exact ⟨rfl, _, rfl, Nat.le_refl _, fun _ => rfl, LVol.vol_set _ _ hk⟩
      · cases e
    · cases e
  case readdir =>
    split at e
    · rename_i hn
      cases e
      refine ⟨rfl, rfl, ?_, ?_⟩
      · have := List.Sublist.map (·.1) (List.filter_sublist (l := L.names) (p := fun x => match x.2 with | .file _ => true | .dir => false))
        exact this.nodup hn
      · intro n
        simp only [LVol.regular, List.mem_map, List.mem_filter]
        constructor
        · rintro ⟨⟨m, x⟩, ⟨hm, hx⟩, rfl⟩
          dsimp only at hx
          split at hx
          · rename_i k
            exact ⟨_, Map.get_of_mem hn hm⟩
          · cases hx
        · rintro ⟨k, hk⟩
          exact ⟨(n, .file k), ⟨Map.mem_of_get hk, rfl⟩, rfl⟩
    · cases e; exact ⟨rfl, rfl, trivial⟩
  case rename a b =>
    split at e
    · cases e; exact ⟨rfl, by simp⟩
    · rename_i k x ha hb
      split at e
      · cases e; exact ⟨rfl, by simp⟩
      · rename_i hab
        cases e
        refine ⟨rfl, ?_⟩
        simp only [if_true]
        simp only [not_or, Bool.not_eq_false] at hab
        refine ⟨_, ha, ⟨fun hd => hb hd, hab.2⟩, hab.1, ?_⟩
        rw [LVol.vol_link, LVol.vol_link]
    · cases e; exact ⟨rfl, by simp⟩
  case chmod n p =>
    split at e
    · rename_i k hn
      split at e
      · rename_i hk
        cases e
        refine ⟨rfl, ?_⟩
        simp only [if_true]
        exact ⟨_, hn, LVol.vol_set _ _ hk⟩
      · cases e; exact ⟨rfl, by simp⟩
    · cases e; exact ⟨rfl, by simp⟩
  case remove n =>
    split at e
    · rename_i hn
      cases e
      refine ⟨rfl, ?_⟩
      simp only [if_true]
      exact .inl ⟨hn, trivial⟩
    · rename_i k hn
      cases e
      refine ⟨rfl, ?_⟩
      simp only [if_true]
      exact .inr ⟨_, hn, LVol.vol_link _ _ _⟩
    · cases e; exact ⟨rfl, by simp⟩
  case tmpCreate =>
    split at e
    · rename_i hn
      cases e
      simp only [VolStep, if_true]
      rw [show L.vol.names tempDir = none from hn]
      exact ⟨trivial, LVol.vol_link _ _ _⟩
    · rename_i hn
      cases e
      simp only [VolStep, if_true]
      rw [show L.vol.names tempDir = some .dir from hn]
      simp
    · cases e; exact ⟨rfl, by simp⟩
  case archRead => cases e; exact ⟨rfl, rfl, rfl⟩
  case tmpClose => cases e; exact ⟨rfl, rfl⟩
  case tmpRemove => cases e; exact ⟨rfl, rfl⟩
  all_goals cases e

/-- Whose turn it is, and to do what. -/
inductive SMove
  | start (i : Nat) (msg : Bytes)
  | call (i : Nat) (t : Int)
  | ret (i : Nat)
  | die (i : Nat)

/-- A state given by lists. -/
structure LShared where
  vol : LVol
  wr : Map Nat Scribe := []

namespace LShared

def shared (L : LShared) : Shared where
  vol := L.vol.vol
  wr i := (L.wr.get i).getD {}

def set (L : LShared) (i : Nat) (x : Scribe) : LShared := { L with wr := (i, x) :: L.wr }

theorem shared_set (L : LShared) (i : Nat) (x : Scribe) : (L.set i x).shared = L.shared.set i x := by
  simp only [shared, set, Shared.set, Map.get, Shared.mk.injEq, true_and]
  funext j
  by_cases h : i = j
  · simp [h]
  · simp [h, Ne.symm h]

def at' (L : LShared) (i : Nat) : Scribe := (L.wr.get i).getD {}

end LShared

/-- One move. -/
def shMove (umask : Nat) (lib : RLib) (cs : Nat → Option RCfg) (L : LShared) : SMove → Option (ShLab × LShared)
  | .start i msg =>
    match cs i, (L.at' i).job with
    | some c, none => some (.start i msg, L.set i { L.at' i with job := some (msg, c.write lib (L.at' i).rw msg) })
    | _, _ => none
  | .call i t =>
    match (L.at' i).job with
    | some (msg, .call o k) =>
      match volAnswer umask t L.vol (L.at' i).fd o with
      | some (r, v', h') => some (.sys i ⟨o, r⟩, ({ L with vol := v' } : LShared).set i { L.at' i with fd := h', job := some (msg, k r) })
      | none => none
    | _ => none
  | .ret i =>
    match (L.at' i).job with
    | some (msg, .ret (res, rw')) => some (.ret i msg res, L.set i { L.at' i with rw := rw', job := none })
    | _ => none
  | .die i => some (.die i ((L.at' i).job.map (·.1)), L.set i {})

theorem shMove_ok {umask : Nat} {lib : RLib} {cs : Nat → Option RCfg} {L L' : LShared} {m : SMove} {l : ShLab} (e : shMove umask lib cs L m = some (l, L')) :
    ShStep umask lib cs L.shared l L'.shared := by
  cases m <;> simp only [shMove] at e
  case start i msg =>
    split at e
    · rename_i c hc hj
      cases e
      rw [LShared.shared_set]
      exact .start (s := L.shared) hc hj
    · cases e
  case call i t =>
    split at e
    · rename_i msg o k hj
      split at e
      · rename_i r v' h' ha
        cases e
        rw [LShared.shared_set]
        exact .sys (s := L.shared) hj (volAnswer_ok ha)
      · cases e
    · cases e
  case ret i =>
    split at e
    · rename_i msg res rw' hj
      cases e
      rw [LShared.shared_set]
      exact .ret (s := L.shared) hj
    · cases e
  case die i =>
    cases e
    rw [LShared.shared_set]
    exact .die (s := L.shared)

/-- Some moves, in order. -/
def shMoves (umask : Nat) (lib : RLib) (cs : Nat → Option RCfg) : List ShLab → LShared → List SMove → Option (List ShLab × LShared)
  | tr, L, [] => some (tr, L)
  | tr, L, m :: ms =>
    match shMove umask lib cs L m with
    | some (l, L') => shMoves umask lib cs (tr ++ [l]) L' ms
    | none => none

theorem shMoves_ok {umask : Nat} {lib : RLib} {cs : Nat → Option RCfg} {L0 : LShared} {ms : List SMove} {tr tr' : List ShLab} {L L' : LShared} (h : ShExec umask lib cs L0.shared tr L.shared)
    (e : shMoves umask lib cs tr L ms = some (tr', L')) : ShExec umask lib cs L0.shared tr' L'.shared := by
  induction ms generalizing tr L with
  | nil => cases e; exact h
  | cons m ms ih =>
    simp only [shMoves] at e
    split at e
    · rename_i l L1 hm
      exact ih (.step h (shMove_ok hm)) e
    · cases e

/-- A run of the simulator. -/
structure ShRun (umask : Nat) (lib : RLib) (cs : Nat → Option RCfg) (v0 : LVol) (ms : List SMove) where
  tr : List ShLab
  L' : LShared
  moves : shMoves umask lib cs [] { vol := v0 } ms = some (tr, L')

def shRun (umask : Nat) (lib : RLib) (cs : Nat → Option RCfg) (v0 : LVol) (ms : List SMove) (h : (shMoves umask lib cs [] { vol := v0 } ms).isSome = true) : ShRun umask lib cs v0 ms where
  tr := ((shMoves umask lib cs [] { vol := v0 } ms).get h).1
  L' := ((shMoves umask lib cs [] { vol := v0 } ms).get h).2
  moves := by rw [Option.some_get]

theorem ShRun.exec {umask : Nat} {lib : RLib} {cs : Nat → Option RCfg} {v0 : LVol} {ms : List SMove} (R : ShRun umask lib cs v0 ms) :
    ShExec umask lib cs { vol := v0.vol } R.tr R.L'.shared := by
  have h0 : ({ vol := v0 } : LShared).shared = { vol := v0.vol } := rfl
  rw [← h0]
  exact shMoves_ok .start R.moves

end Log4g
