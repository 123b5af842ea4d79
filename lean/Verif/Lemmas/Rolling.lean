import Verif.Lemmas.Prog
import Verif.Lemmas.RollNames

/-! # What rolling does to the directory -/

namespace Log4g
open Spec Strconv

theorem chunks_append (a b : STrace) : chunks (a ++ b) = chunks a ++ chunks b := by
  induction a with
  | nil => rfl
  | cons x xs ih =>
    obtain ⟨o, r⟩ := x
    cases o <;> simp [chunks, ih]

theorem rolls_append (a b : STrace) : rolls (a ++ b) = rolls a + rolls b := by
  induction a with
  | nil => simp [rolls]
  | cons x xs ih =>
    obtain ⟨o, r⟩ := x
    cases o <;> simp [rolls, ih, Nat.add_assoc]

theorem cuts_snoc (cur : List Bytes) (tr : STrace) (x : (o : Sys) × o.Resp) : cuts cur (tr ++ [x]) = cutStep (cuts cur tr) x := by
  simp [cuts]

theorem cuts_chunks (cur : List Bytes) (tr : STrace) : (cuts cur tr).1.flatten ++ (cuts cur tr).2 = cur ++ chunks tr := by
  suffices h : ∀ s : List (List Bytes) × List Bytes, (tr.foldl cutStep s).1.flatten ++ (tr.foldl cutStep s).2 = s.1.flatten ++ s.2 ++ chunks tr by
    simpa [cuts] using h ([], cur)
  induction tr with
  | nil => intro s; simp [chunks]
  | cons x tr ih =>
    intro s
    rw [List.foldl_cons, ih]
    obtain ⟨o, r⟩ := x
    cases o <;> try simp [cutStep, chunks]
    case rename => cases r <;> simp [cutStep]

variable {lib : RLib} {c : RCfg} {S : Prop}

/-- The backups are `hs`; what was there at first (`F0`: the backups, and the current file) and what was written is what
has been dropped and what is there, file by file.  Some dropped files may still be there, as oldest backups; not if `S`. -/
structure Kept (lib : RLib) (c : RCfg) (S : Prop) (F0 : List Bytes × List Bytes) (hs : List Str) (tr : STrace) (d : Dir) : Prop where
  backups : Backups lib c d hs
  keep : ∃ (old recent : List Str) (dropped : List Bytes), hs = old ++ recent ∧
    dropped ++ recent.map (dataOf d) = F0.1 ++ (cuts F0.2 tr).1.map List.flatten ∧ (dropped = [] ∨ c.maxRolls ≤ recent.length) ∧
    (old.map (dataOf d)).Sublist dropped ∧ (S → old = [])
  cur : current c d = [] ∧ (cuts F0.2 tr).2 = [] ∨ current c d = [(cuts F0.2 tr).2.flatten]

theorem put_dir (d : Disk) (n : Str) (x : Option Node) (m : Str) : (d.put n x).dir m = if m = n then x else d.dir m := rfl

theorem files_congr {d d' : Dir} {hs : List Str} (h : ∀ n ∈ hs, dataOf d' n = dataOf d n) (hc : current c d' = current c d) :
    files c d' hs = files c d hs := by
  simp only [files, hc]
  rw [List.map_congr_left h]

theorem Spec.Backups.ne_current {d : Dir} {hs : List Str} (h : Backups lib c d hs) {n : Str} (hn : n ∈ hs) : n ≠ c.fileName := by
  rintro rfl
  obtain ⟨⟨v, hv⟩, _⟩ := (h.all _).mp hn
  exact current_not_backup lib c v hv

theorem Spec.Backups.congr {d d' : Dir} {hs : List Str} (h : Backups lib c d hs) (hr : ∀ n, (∃ v, Backup lib c n v) → (Regular d' n ↔ Regular d n)) :
    Backups lib c d' hs := by
  refine ⟨fun n => ?_, h.order⟩
  rw [h.all]
  constructor
  · rintro ⟨a, b⟩; exact ⟨a, (hr n a).mpr b⟩
  · rintro ⟨a, b⟩; exact ⟨a, (hr n a).mp b⟩

theorem Kept.same {F0 : List Bytes × List Bytes} {hs : List Str} {tr tr' : STrace} {d d' : Dir} (h : Kept lib c S F0 hs tr d) (hd : d' = d)
    (hc : cuts F0.2 tr' = cuts F0.2 tr) : Kept lib c S F0 hs tr' d' := by
  subst hd
  exact ⟨h.backups, by rw [hc]; exact h.keep, by rw [hc]; exact h.cur⟩

theorem current_file {d : Dir} {data : Bytes} {p : Nat} (h : d c.fileName = some (.file data p)) : current c d = [data] := by
  simp [current, h]

theorem current_none {d : Dir} (h : d c.fileName = none) : current c d = [] := by simp [current, h]

theorem dataOf_file {d : Dir} {n : Str} {data : Bytes} {p : Nat} (h : d n = some (.file data p)) : dataOf d n = data := by simp [dataOf, h]

/-- The current file is created. -/
theorem Kept.create {F0 : List Bytes × List Bytes} {hs : List Str} {tr tr' : STrace} {d : Disk} {p : Nat} (h : Kept lib c S F0 hs tr d.dir)
    (hn : d.dir c.fileName = none) (hc : cuts F0.2 tr' = cuts F0.2 tr) : Kept lib c S F0 hs tr' (d.put c.fileName (some (.file [] p))).dir := by
  obtain ⟨old, recent, dr, rfl, h2, h3, h4, h5⟩ := h.keep
  have hdata : ∀ n ∈ old ++ recent, dataOf (d.put c.fileName (some (.file [] p))).dir n = dataOf d.dir n := by
    intro n hn'
    simp [dataOf, put_dir, h.backups.ne_current hn']
  have hcur := h.cur
  rw [current_none hn] at hcur
  have hlast : (cuts F0.2 tr).2 = [] := by
    rcases hcur with h | h
    · exact h.2
    · cases h
  refine ⟨h.backups.congr ?_, ⟨old, recent, dr, rfl, ?_, h3, ?_, h5⟩, ?_⟩
  · rintro n ⟨v, hv⟩
    have : n ≠ c.fileName := by rintro rfl; exact current_not_backup lib c v hv
    simp [Regular, put_dir, this]
  · rw [hc, ← h2, List.map_congr_left fun n hn' => hdata n (by simp [hn'])]
  · rw [List.map_congr_left fun n hn' => hdata n (by simp [hn'])]
    exact h4
  · right
    rw [hc, hlast, current_file (c := c) (data := []) (p := p) (by rw [put_dir, if_pos rfl])]
    rfl

/-- The current file grows. -/
theorem Kept.write {F0 : List Bytes × List Bytes} {hs : List Str} {tr : STrace} {d : Disk} {data bs : Bytes} {p : Nat} {x : (o : Sys) × o.Resp} (h : Kept lib c S F0 hs tr d.dir)
    (hn : d.dir c.fileName = some (.file data p)) (hc : cutStep (cuts F0.2 tr) x = ((cuts F0.2 tr).1, (cuts F0.2 tr).2 ++ [bs])) :
    Kept lib c S F0 hs (tr ++ [x]) (d.put c.fileName (some (.file (data ++ bs) p))).dir := by
  obtain ⟨old, recent, dr, rfl, h2, h3, h4, h5⟩ := h.keep
  have hdata : ∀ n ∈ old ++ recent, dataOf (d.put c.fileName (some (.file (data ++ bs) p))).dir n = dataOf d.dir n := by
    intro n hn'
    simp [dataOf, put_dir, h.backups.ne_current hn']
  have hcur := h.cur
  rw [current_file hn] at hcur
  have hlast : data = (cuts F0.2 tr).2.flatten := by
    rcases hcur with h | h
    · cases h.1
    · simpa using h
  refine ⟨h.backups.congr ?_, ⟨old, recent, dr, rfl, ?_, h3, ?_, h5⟩, ?_⟩
  · rintro n ⟨v, hv⟩
    have : n ≠ c.fileName := by rintro rfl; exact current_not_backup lib c v hv
    simp [Regular, put_dir, this]
  · rw [cuts_snoc, hc, ← h2, List.map_congr_left fun n hn' => hdata n (by simp [hn'])]
  · rw [List.map_congr_left fun n hn' => hdata n (by simp [hn'])]
    exact h4
  · right
    rw [cuts_snoc, hc, current_file (c := c) (data := data ++ bs) (p := p) (by rw [put_dir, if_pos rfl]), hlast]
    simp

/-- The current file becomes the last backup. -/
theorem Kept.rename {F0 : List Bytes × List Bytes} {hs : List Str} {tr tr' : STrace} {d : Disk} {data : Bytes} {p : Nat} {new : Str} {v : Int} (h : Kept lib c S F0 hs tr d.dir)
    (hn : d.dir c.fileName = some (.file data p)) (hnew : Backup lib c new v) (hv : ∀ n ∈ hs, ∀ w, Backup lib c n w → w < v)
    (hc : cuts F0.2 tr' = ((cuts F0.2 tr).1 ++ [(cuts F0.2 tr).2], [])) :
    Kept lib c S F0 (hs ++ [new]) tr' ((d.put c.fileName none).put new (some (.file data p))).dir := by
  obtain ⟨old, recent, dr, rfl, h2, h3, h4, h5⟩ := h.keep
  have hne : new ≠ c.fileName := by rintro rfl; exact current_not_backup lib c v hnew
  have hfresh : new ∉ old ++ recent := fun hm => absurd (hv new hm v hnew) (by omega)
  have hdir : ∀ n, ((d.put c.fileName none).put new (some (.file data p))).dir n =
      if n = new then some (.file data p) else if n = c.fileName then none else d.dir n := fun n => rfl
  have hdata : ∀ n ∈ old ++ recent, dataOf ((d.put c.fileName none).put new (some (.file data p))).dir n = dataOf d.dir n := by
    intro n hn'
    have e1 : n ≠ new := by rintro rfl; exact hfresh hn'
    simp [dataOf, hdir, e1, h.backups.ne_current hn']
  have hcur := h.cur
  rw [current_file hn] at hcur
  have hlast : data = (cuts F0.2 tr).2.flatten := by
    rcases hcur with h | h
    · cases h.1
    · simpa using h
  refine ⟨⟨?_, ?_⟩, ⟨old, recent ++ [new], dr, by simp, ?_, ?_, ?_, h5⟩, .inl ⟨?_, by rw [hc]⟩⟩
  · intro n
    rw [List.mem_append, h.backups.all]
    simp only [List.mem_singleton, Regular, hdir]
    by_cases e : n = new
    · subst e; simp [show ∃ v, Backup lib c n v from ⟨v, hnew⟩]
    · by_cases e2 : n = c.fileName
      · subst e2
        constructor
        · rintro (⟨⟨w, hw⟩, _⟩ | h)
          · exact absurd hw (current_not_backup lib c w)
          · exact absurd h e
        · rintro ⟨⟨w, hw⟩, _⟩; exact absurd hw (current_not_backup lib c w)
      · simp [e, e2]
  · rw [List.pairwise_append]
    refine ⟨h.backups.order, by simp, ?_⟩
    intro a ha b hb v1 w1 h1 h2
    simp only [List.mem_singleton] at hb; subst hb
    rw [backup_unique h2 hnew]
    exact hv a ha v1 h1
  · rw [hc, List.map_append, List.map_append, ← List.append_assoc, ← List.append_assoc, ← h2,
      List.map_congr_left fun n hn' => hdata n (List.mem_append_right old hn')]
    congr 1
    simp [dataOf, hdir, ← hlast]
  · rcases h3 with h3 | h3
    · exact .inl h3
    · right; simp; omega
  · rw [List.map_congr_left fun n hn' => hdata n (by simp [hn'])]
    exact h4
  · exact current_none (by rw [hdir]; simp [Ne.symm hne])

/-- Permissions do not matter. -/
theorem Kept.chmod {F0 : List Bytes × List Bytes} {hs : List Str} {tr tr' : STrace} {d : Disk} {data : Bytes} {p q : Nat} {n : Str} (h : Kept lib c S F0 hs tr d.dir)
    (hn : d.dir n = some (.file data p)) (hc : cuts F0.2 tr' = cuts F0.2 tr) :
    Kept lib c S F0 hs tr' (d.put n (some (.file data q))).dir := by
  obtain ⟨old, recent, dr, rfl, h2, h3, h4, h5⟩ := h.keep
  have hdata : ∀ m, dataOf (d.put n (some (.file data q))).dir m = dataOf d.dir m := by
    intro m
    by_cases e : m = n
    · subst e; simp [dataOf, put_dir, hn]
    · simp [dataOf, put_dir, e]
  have hcur : current c (d.put n (some (.file data q))).dir = current c d.dir := by
    by_cases e : c.fileName = n
    · subst e; simp [current, put_dir, hn]
    · simp [current, put_dir, e]
  refine ⟨h.backups.congr ?_, ⟨old, recent, dr, rfl, ?_, h3, ?_, h5⟩, by rw [hc, hcur]; exact h.cur⟩
  · intro m _
    by_cases e : m = n
    · subst e; simp [Regular, put_dir, hn]
    · simp [Regular, put_dir, e]
  · rw [hc, ← h2, List.map_congr_left fun n _ => hdata n]
  · rw [List.map_congr_left fun n _ => hdata n]
    exact h4

/-- A backup goes that is not among the last `maxRolls`; if `S`, the oldest. -/
theorem Kept.remove {F0 : List Bytes × List Bytes} {as bs : List Str} {tr tr' : STrace} {d : Disk} {n : Str} (h : Kept lib c S F0 (as ++ n :: bs) tr d.dir)
    (hlen : c.maxRolls ≤ bs.length) (hS : S → as = []) (hc : cuts F0.2 tr' = cuts F0.2 tr) : Kept lib c S F0 (as ++ bs) tr' (d.put n none).dir := by
  obtain ⟨old, recent, dr, h0, h2, h3, h4, h5⟩ := h.keep
  have hnc := h.backups.ne_current (n := n) (by simp)
  have hord := h.backups.order
  rw [List.pairwise_append, List.pairwise_cons] at hord
  obtain ⟨v, hv⟩ := ((h.backups.all n).mp (by simp)).1
  have hnot : n ∉ as ++ bs := by
    intro hm
    rcases List.mem_append.mp hm with hm | hm
    · exact absurd (hord.2.2 n hm n (by simp) v v hv hv) (by omega)
    · exact absurd (hord.2.1.1 n hm v v hv hv) (by omega)
  have hdata : ∀ m ∈ as ++ bs, dataOf (d.put n none).dir m = dataOf d.dir m := by
    intro m hm
    have : m ≠ n := by rintro rfl; exact hnot hm
    simp [dataOf, put_dir, this]
  have hcur : current c (d.put n none).dir = current c d.dir := by simp [current, put_dir, Ne.symm hnc]
  have hcur' := h.cur
  rw [← hcur, ← hc] at hcur'
  rw [← hc] at h2
  have hb : Backups lib c (d.put n none).dir (as ++ bs) := by
    refine ⟨?_, List.pairwise_append.mpr ⟨hord.1, hord.2.1.2, fun a ha b hb => hord.2.2 a ha b (by simp [hb])⟩⟩
    intro m
    by_cases e : m = n
    · subst e; simp [hnot, Regular, put_dir]
    · have := h.backups.all m
      rw [List.mem_append, List.mem_cons] at this
      simp only [e, false_or] at this
      rw [List.mem_append, this]; simp [Regular, put_dir, e]
  rcases List.append_eq_append_iff.mp h0 with ⟨r1, rfl, hr⟩ | ⟨o2, rfl, ho⟩
  · cases r1 with
    | nil =>
      simp only [List.nil_append] at hr
      refine ⟨hb, ⟨as ++ [], bs, dr ++ [dataOf d.dir n], by simp, ?_, .inr hlen, ?_, fun s => by simp [hS s]⟩, hcur'⟩
      · rw [← h2, ← hr, List.map_congr_left fun m hm => hdata m (by simp [hm])]
        simp
      · rw [List.append_nil, List.map_congr_left fun m hm => hdata m (by simp [hm])]
        simp only [List.append_nil] at h4
        exact h4.trans (List.sublist_append_left _ _)
    | cons x r1 =>
      injection hr with e1 e2
      subst e1
      have e2 : bs = r1 ++ recent := e2
      have hm' : ∀ m ∈ as ++ r1, m ∈ as ++ bs := fun m hm => by
        rcases List.mem_append.mp hm with hm | hm
        · simp [hm]
        · simp [e2, hm]
      refine ⟨hb, ⟨as ++ r1, recent, dr, by simp [e2], ?_, h3, ?_, ?_⟩, hcur'⟩
      · rw [← h2, List.map_congr_left fun m hm => hdata m (by simp [e2, hm])]
      · rw [List.map_congr_left fun m hm => hdata m (hm' m hm)]
        refine List.Sublist.trans ?_ h4
        simp
      · intro s
        have := h5 s
        simp at this
  · refine ⟨hb, ⟨old ++ o2, bs, dr ++ (o2 ++ [n]).map (dataOf d.dir), rfl, ?_, .inr hlen, ?_, hS⟩, hcur'⟩
    · rw [← h2, ho, List.map_congr_left fun m hm => hdata m (by simp [hm])]
      simp
    · rw [List.map_congr_left fun m hm => hdata m (List.mem_append_left _ hm), List.map_append, List.map_append]
      exact List.Sublist.append h4 (by simp)

/-! ## Programs that leave the directory alone -/

/-- A call that does not change the directory. -/
def quiet : Sys → Bool
  | .openAppend _ _ | .write _ _ | .rename _ _ | .chmod _ _ | .remove _ => false
  | _ => true

theorem quiet_step {umask : Nat} {d d' : Disk} {o : Sys} {r : o.Resp} (h : quiet o = true) (hs : SysStep umask d o r d') : d'.dir = d.dir := by
  cases o <;> simp only [quiet, Bool.false_eq_true] at h <;> simp only [SysStep] at hs
  case mkdirAll => rw [hs]
  case stat => rw [hs.1]
  case close => rw [hs]
  case readdir => rw [hs.1]
  case now => rw [hs]
  case tmpCreate => split at hs <;> rw [hs]
  case archRead => rw [hs.1]
  case rollRead => rw [hs.1]
  case tmpEntry =>
    split at hs
    · obtain ⟨_, _, hs⟩ := hs; rw [hs]
    · rw [hs]
  case tmpClose => rw [hs]
  case tmpRename =>
    split at hs
    · obtain ⟨_, _, _, hs⟩ := hs; rw [hs]
    · rw [hs]
  case tmpRemove => split at hs <;> rw [hs]

/-- Whether the call is a roll. -/
def isRoll : (o : Sys) × o.Resp → Bool
  | ⟨.rename _ _, r⟩ => r
  | _ => false

theorem quiet_isRoll {o : Sys} {r : o.Resp} (h : quiet o = true) : isRoll ⟨o, r⟩ = false := by
  cases o <;> simp [quiet] at h <;> rfl

theorem quiet_cuts {o : Sys} {r : o.Resp} (h : quiet o = true) (s : List (List Bytes) × List Bytes) : cutStep s ⟨o, r⟩ = s := by
  cases o <;> simp [quiet] at h <;> simp [cutStep]

theorem quiet_chunks {o : Sys} {r : o.Resp} (h : quiet o = true) : chunks [⟨o, r⟩] = [] ∧ rolls [⟨o, r⟩] = 0 := by
  cases o <;> simp [quiet] at h <;> simp [chunks, rolls]

/-- All calls of a program leave the directory alone. -/
def Quiet {α : Type} : Prog α → Prop
  | .ret _ => True
  | .call o k => quiet o = true ∧ ∀ r, Quiet (k r)

theorem Quiet.bind {α β : Type} {p : Prog α} {f : α → Prog β} (hp : Quiet p) (hf : ∀ a, Quiet (f a)) : Quiet (p >>= f) := by
  show Quiet (p.bind f)
  induction p with
  | ret a => exact hf a
  | call o k ih => exact ⟨hp.1, fun r => ih r (hp.2 r)⟩

theorem Quiet.pure {α : Type} (a : α) : Quiet (pure a : Prog α) := trivial

theorem Quiet.sys {o : Sys} (h : quiet o = true) : Quiet (sys o) := ⟨h, fun _ => trivial⟩

theorem quiet_exploded (c : RCfg) (n : Str) : Quiet (c.archiveExplodedLogs n) := by
  refine Quiet.bind (Quiet.sys rfl) ?_
  intro r
  cases r with
  | none => exact trivial
  | some data =>
    refine Quiet.bind (Quiet.sys rfl) ?_
    intro b
    cases b
    · exact trivial
    · refine Quiet.bind (Quiet.sys rfl) fun ok => Quiet.bind (Quiet.sys rfl) fun cl => ?_
      cases ok <;> cases cl <;> first | exact Quiet.sys rfl | exact Quiet.bind (Quiet.sys rfl) fun _ => trivial

theorem quiet_each (c : RCfg) (ns : List Str) : Quiet (c.archiveEach ns) := by
  induction ns with
  | nil => exact trivial
  | cons n ns ih => exact Quiet.bind (quiet_exploded c n) fun _ => ih

theorem quiet_copy (es : Entries) : Quiet (copyEntries es) := by
  induction es with
  | nil => exact trivial
  | cons e es ih =>
    refine Quiet.bind (Quiet.sys rfl) fun b => ?_
    cases b
    · exact trivial
    · exact ih

theorem quiet_add (ns : List Str) : Quiet (addFiles ns) := by
  induction ns with
  | nil => exact trivial
  | cons n ns ih =>
    refine Quiet.bind (Quiet.sys rfl) fun r => ?_
    cases r with
    | none => exact trivial
    | some data =>
      refine Quiet.bind (Quiet.sys rfl) fun b => ?_
      cases b
      · exact trivial
      · exact ih

theorem quiet_unexploded (ns : List Str) : Quiet (archiveUnexplodedLogs ns) := by
  refine Quiet.bind (Quiet.sys rfl) fun b => ?_
  cases b
  · exact trivial
  · refine Quiet.bind (Quiet.bind (Quiet.sys rfl) fun r => ?_) fun ok => Quiet.bind (Quiet.sys rfl) fun cl => ?_
    · cases r with
      | failed => exact trivial
      | absent => exact quiet_add ns
      | entries es =>
        refine Quiet.bind (quiet_copy es) fun b => ?_
        cases b
        · exact trivial
        · exact quiet_add ns
    · cases ok <;> cases cl <;> first | exact Quiet.sys rfl | exact Quiet.bind (Quiet.sys rfl) fun _ => trivial

/-! ## The writer keeps everything -/

section
variable {umask : Nat} {F0 : List Bytes × List Bytes} {G : STrace → Prop} {X : STrace → List Str → Prop} {Y Z : STrace → RW → List Str → Prop}

/-- What holds after every call. -/
def Held (lib : RLib) (c : RCfg) (S : Prop) (F0 : List Bytes × List Bytes) (X : STrace → List Str → Prop) (hs : List Str) (tr : STrace) (d : Disk) : Prop :=
  Kept lib c S F0 hs tr d.dir ∧ X tr hs

/-- The writer knows the file it has open. -/
def Knows (c : RCfg) (rw : RW) (d : Disk) : Prop :=
  rw.file = some .opened → rw.name = c.fileName ∧ ∃ data p, d.dir c.fileName = some (.file data p) ∧ rw.size = data.length

/-- What is particular to the kind of writer: `X` about the backups, `Y` also about the writer, `Z` when it is
going to roll. -/
structure Plan (umask : Nat) (lib : RLib) (c : RCfg) (S : Prop) (F0 : List Bytes × List Bytes) (G : STrace → Prop) (X : STrace → List Str → Prop)
    (Y Z : STrace → RW → List Str → Prop) : Prop where
  removes : S → ∀ tr n r, G (tr ++ [⟨.remove n, r⟩]) → r = true
  xmono : ∀ tr x hs, isRoll x = false → X tr hs → G (tr ++ [x]) → X (tr ++ [x]) hs
  xdrop : ∀ tr as n bs, X tr (as ++ n :: bs) → X tr (as ++ bs)
  ymono : ∀ tr x rw hs, Y tr rw hs → G (tr ++ [x]) → Y (tr ++ [x]) rw hs
  zmono : ∀ tr x rw hs, isRoll x = false → Z tr rw hs → G (tr ++ [x]) → Z (tr ++ [x]) rw hs
  yfresh : ∀ tr hs, X tr hs → Y tr {} hs
  yfile : ∀ tr rw rw' hs, rw'.timeName = rw.timeName → Y tr rw hs → Y tr rw' hs
  zfile : ∀ tr rw rw' hs, rw'.timeName = rw.timeName → Z tr rw hs → Z tr rw' hs
  ydrop : ∀ tr rw as n bs, Y tr rw (as ++ n :: bs) → Y tr rw (as ++ bs)
  need : ∀ rw hs tr d, Held lib c S F0 X hs tr d → Y tr rw hs → Knows c rw d →
    wp umask G (fun tr d => ∃ hs, Held lib c S F0 X hs tr d) (c.needsToRoll lib rw)
      (fun br tr' d' => Held lib c S F0 X hs tr' d' ∧ d'.dir = d.dir ∧ br.2.file = rw.file ∧ br.2.name = rw.name ∧ br.2.size = rw.size ∧
        Y tr' br.2 hs ∧ (br.1 = true → br.2.file = some .opened → Z tr' br.2 hs)) tr d
  new : ∀ rw hs tr d, Held lib c S F0 X hs tr d → Y tr rw hs → Z tr rw hs →
    wp umask G (fun tr d => ∃ hs, Held lib c S F0 X hs tr d) (c.getNewHistoryRollFileName lib rw hs)
      (fun nr tr' d' => Held lib c S F0 X hs tr' d' ∧ d'.dir = d.dir ∧ nr.2.file = rw.file ∧ nr.2.name = rw.name ∧ nr.2.size = rw.size ∧
        Y tr' nr.2 hs ∧ ∀ a b, G (tr' ++ [⟨.rename a b, true⟩]) → ∃ v, Tag lib c.kind nr.1 v ∧ (∀ n ∈ hs, ∀ w, Backup lib c n w → w < v) ∧
          X (tr' ++ [⟨.rename a b, true⟩]) (hs ++ [backupName c.mode c.fileName nr.1]) ∧
          Y (tr' ++ [⟨.rename a b, true⟩]) nr.2 (hs ++ [backupName c.mode c.fileName nr.1])) tr d

variable (P : Plan umask lib c S F0 G X Y Z)
include P

theorem Held.quiet {hs : List Str} {tr : STrace} {d d' : Disk} {o : Sys} {r : o.Resp} (h : Held lib c S F0 X hs tr d) (hq : quiet o = true)
    (hs' : SysStep umask d o r d') (hg : G (tr ++ [⟨o, r⟩])) : Held lib c S F0 X hs (tr ++ [⟨o, r⟩]) d' :=
  ⟨h.1.same (quiet_step hq hs') (by rw [cuts_snoc, quiet_cuts hq]), P.xmono _ _ _ (quiet_isRoll hq) h.2 hg⟩

theorem wp_quiet {α : Type} {p : Prog α} (hq : Quiet p) {hs : List Str} {tr : STrace} {d : Disk} {rw : RW} (h : Held lib c S F0 X hs tr d) (hy : Y tr rw hs) :
    wp umask G (fun tr d => ∃ hs, Held lib c S F0 X hs tr d) p (fun _ tr' d' => Held lib c S F0 X hs tr' d' ∧ d'.dir = d.dir ∧ Y tr' rw hs) tr d := by
  induction p generalizing tr d with
  | ret a => exact ⟨h, rfl, hy⟩
  | call o k ih =>
    intro r d' hs' hg
    have h' := h.quiet P hq.1 hs' hg
    refine ⟨⟨hs, h'⟩, wp_mono _ ?_ (ih r (hq.2 r) h' (P.ymono _ _ _ _ hy hg))⟩
    rintro _ _ _ ⟨a, b, c⟩
    exact ⟨a, by rw [b, quiet_step hq.1 hs'], c⟩

theorem wp_removeAll {stay names hs : List Str} {tr : STrace} {d : Disk} {rw : RW} (h : Held lib c S F0 X (stay ++ (names ++ hs)) tr d) (hl : c.maxRolls ≤ hs.length)
    (hS : S → stay = []) (hy : Y tr rw (stay ++ (names ++ hs))) :
    wp umask G (fun tr d => ∃ hs, Held lib c S F0 X hs tr d) (removeAll names) (fun _ tr' d' => ∃ hs', Held lib c S F0 X hs' tr' d' ∧ Y tr' rw hs') tr d := by
  induction names generalizing stay tr d with
  | nil => exact ⟨_, h, hy⟩
  | cons n ns ih =>
    rw [removeAll, wp_bind, wp_sys]
    intro r d' hs' hg
    cases r with
    | true =>
      simp only [SysStep, if_true] at hs'
      rcases hs' with ⟨h1, _⟩ | ⟨data, p, h1, rfl⟩
      · obtain ⟨_, _, _, h2⟩ := (h.1.backups.all n).mp (by simp)
        rw [h1] at h2; cases h2
      · have hK : Held lib c S F0 X (stay ++ (ns ++ hs)) (tr ++ [⟨.remove n, true⟩]) (d.put n none) :=
          ⟨h.1.remove (by simp; omega) hS (by rw [cuts_snoc]; rfl), P.xdrop _ _ _ _ (P.xmono _ _ _ rfl h.2 hg)⟩
        exact ⟨⟨_, hK⟩, ih hK hS (P.ydrop _ _ _ _ _ (P.ymono _ _ _ _ hy hg))⟩
    | false =>
      simp only [SysStep, Bool.false_eq_true, if_false] at hs'
      subst hs'
      have hK : Held lib c S F0 X (stay ++ (n :: ns ++ hs)) (tr ++ [⟨.remove n, false⟩]) d' :=
        ⟨h.1.same rfl (by rw [cuts_snoc]; rfl), P.xmono _ _ _ rfl h.2 hg⟩
      have hY := P.ymono _ _ _ _ hy hg
      refine ⟨⟨_, hK⟩, ih (stay := stay ++ [n]) (by simpa using hK) (fun s => ?_) (by simpa using hY)⟩
      exact absurd (P.removes s _ _ _ hg) (by simp)

theorem wp_deleteOldRolls {hs : List Str} {tr : STrace} {d : Disk} {rw : RW} (h : Held lib c S F0 X hs tr d) (hy : Y tr rw hs) :
    wp umask G (fun tr d => ∃ hs, Held lib c S F0 X hs tr d) (c.deleteOldRolls hs)
      (fun _ tr' d' => ∃ hs', Held lib c S F0 X hs' tr' d' ∧ Y tr' rw hs') tr d := by
  rw [RCfg.deleteOldRolls]
  split
  · exact ⟨hs, h, hy⟩
  · dsimp only
    split
    · exact ⟨hs, h, hy⟩
    · rename_i h1 h2
      have hsplit := List.take_append_drop ((hs.length : Int) - c.maxRolls).toNat hs
      have hlen : c.maxRolls ≤ (hs.drop ((hs.length : Int) - c.maxRolls).toNat).length := by
        rw [List.length_drop]; omega
      have fin : ∀ {tr d}, Held lib c S F0 X hs tr d → Y tr rw hs →
          wp umask G (fun tr d => ∃ hs, Held lib c S F0 X hs tr d) (removeAll (hs.take ((hs.length : Int) - c.maxRolls).toNat))
            (fun _ tr' d' => ∃ hs', Held lib c S F0 X hs' tr' d' ∧ Y tr' rw hs') tr d := by
        intro tr d h hy
        exact wp_removeAll P (stay := []) (names := hs.take ((hs.length : Int) - c.maxRolls).toNat) (hs := hs.drop ((hs.length : Int) - c.maxRolls).toNat) (rw := rw)
          (by rw [hsplit]; exact h) hlen (fun _ => rfl) (by rw [hsplit]; exact hy)
      split
      · rw [wp_bind]
        refine wp_mono _ ?_ (wp_quiet P (Quiet.sys rfl) h hy)
        rintro b tr1 d1 ⟨ha, _, hy1⟩
        split
        · rw [wp_bind]
          refine wp_mono _ ?_ (wp_quiet P (quiet_each c _) ha hy1)
          rintro _ _ _ ⟨ha, _, hy1⟩
          exact fin ha hy1
        · rw [wp_bind]
          refine wp_mono _ ?_ (wp_quiet P (quiet_unexploded _) ha hy1)
          rintro _ _ _ ⟨ha, _, hy1⟩
          exact fin ha hy1
      · exact fin h hy

/-- What holds between writes. -/
def Between (lib : RLib) (c : RCfg) (S : Prop) (F0 : List Bytes × List Bytes) (X : STrace → List Str → Prop) (Y : STrace → RW → List Str → Prop) (rw : RW) (tr : STrace) (d : Disk) : Prop :=
  ∃ hs, Held lib c S F0 X hs tr d ∧ Y tr rw hs ∧ Knows c rw d

theorem wp_rollOver {hs : List Str} {tr : STrace} {d : Disk} {rw : RW} (h : Held lib c S F0 X hs tr d) (hy : Y tr rw hs) (hz : Z tr rw hs)
    (hf : rw.file = none) (hn : rw.name = c.fileName) :
    wp umask G (fun tr d => ∃ hs, Held lib c S F0 X hs tr d) (c.rollOver lib rw hs)
      (fun br tr' d' => br.2.file = none ∧ Between lib c S F0 X Y br.2 tr' d') tr d := by
  rw [RCfg.rollOver, wp_bind]
  refine wp_mono _ ?_ (P.new rw hs tr d h hy hz)
  rintro ⟨tag, rw'⟩ tr1 d1 ⟨h1, hd, hf1, hn1, _, hy1, hnew⟩
  dsimp only at hf1 hn1 hy1 hnew ⊢
  rw [wp_bind, wp_sys, createFull_eq]
  intro r d2 hs2 hg2
  simp only [SysStep] at hs2
  have hkn : ∀ d, Knows c rw' d := by
    intro d hx; rw [hf1, hf] at hx; cases hx
  cases r with
  | false =>
    simp only [Bool.false_eq_true, if_false] at hs2
    subst hs2
    have hK : Held lib c S F0 X hs (tr1 ++ [⟨.rename rw'.name (backupName c.mode c.fileName tag), false⟩]) d2 :=
      ⟨h1.1.same rfl (by rw [cuts_snoc]; rfl), P.xmono _ _ _ rfl h1.2 hg2⟩
    refine ⟨⟨hs, hK⟩, ?_⟩
    simp only [if_true]
    exact ⟨by rw [hf1, hf], hs, hK, P.ymono _ _ _ _ hy1 hg2, hkn _⟩
  | true =>
    simp only [if_true] at hs2
    obtain ⟨v, ht, hv, hx, hy2⟩ := hnew _ _ hg2
    obtain ⟨data, p, e1, _, _, rfl⟩ := hs2
    rw [hn1, hn] at e1
    have hK : Held lib c S F0 X (hs ++ [backupName c.mode c.fileName tag]) (tr1 ++ [⟨.rename rw'.name (backupName c.mode c.fileName tag), true⟩])
        ((d1.put rw'.name none).put (backupName c.mode c.fileName tag) (some (.file data p))) := by
      refine ⟨?_, hx⟩
      have := h1.1.rename (tr' := tr1 ++ [⟨.rename rw'.name (backupName c.mode c.fileName tag), true⟩]) e1 ⟨tag, rfl, ht⟩ hv (by rw [cuts_snoc]; rfl)
      rw [hn1, hn] at *
      exact this
    refine ⟨⟨_, hK⟩, ?_⟩
    simp only [Bool.true_eq_false, if_false]
    rw [wp_bind, wp_sys]
    intro r d3 hs3 hg3
    have hK3 : Held lib c S F0 X (hs ++ [backupName c.mode c.fileName tag]) ((tr1 ++ [⟨.rename rw'.name (backupName c.mode c.fileName tag), true⟩]) ++
        [⟨.chmod (backupName c.mode c.fileName tag) c.backPerm, r⟩]) d3 := by
      refine ⟨?_, P.xmono _ _ _ rfl hK.2 hg3⟩
      simp only [SysStep] at hs3
      split at hs3
      · obtain ⟨data, p, e3, rfl⟩ := hs3
        exact hK.1.chmod e3 (by rw [cuts_snoc]; rfl)
      · exact hK.1.same (by rw [hs3]) (by rw [cuts_snoc]; rfl)
    refine ⟨⟨_, hK3⟩, ?_⟩
    have hy3 := P.ymono _ _ _ _ hy2 hg3
    split
    · rw [wp_bind]
      refine wp_mono _ ?_ (wp_deleteOldRolls P hK3 hy3)
      rintro _ _ _ ⟨hs', h', hy'⟩
      exact ⟨by rw [hf1, hf], hs', h', hy', hkn _⟩
    · exact ⟨by rw [hf1, hf], _, hK3, hy3, hkn _⟩

theorem wp_roll {hs : List Str} {tr : STrace} {d : Disk} {rw : RW} (h : Held lib c S F0 X hs tr d) (hy : Y tr rw hs) (hz : rw.file = some .opened → Z tr rw hs)
    (hk : Knows c rw d) :
    wp umask G (fun tr d => ∃ hs, Held lib c S F0 X hs tr d) (c.roll lib rw)
      (fun br tr' d' => Between lib c S F0 X Y br.2 tr' d') tr d := by
  rw [RCfg.roll]
  split
  · rename_i hf; exact ⟨hs, h, hy, hk⟩
  · rename_i hf; exact ⟨hs, h, hy, hk⟩
  · rename_i hf
    obtain ⟨hn, data, p, hd, _⟩ := hk hf
    rw [wp_bind, wp_sys]
    intro r d1 hs1 hg1
    have h1 := h.quiet P (o := .close rw.name) rfl hs1 hg1
    simp only [SysStep] at hs1
    refine ⟨⟨hs, h1⟩, ?_⟩
    have hy1 := P.ymono _ _ _ _ hy hg1
    have hz1 := P.zmono _ _ _ _ rfl (hz hf) hg1
    cases r with
    | false =>
      simp only [if_true]
      exact ⟨hs, h1, P.yfile _ rw _ _ rfl hy1, fun hx => by cases hx⟩
    | true =>
      simp only [Bool.true_eq_false, if_false]
      rw [RCfg.getSortedLogHistory, wp_bind, wp_bind, wp_sys]
      intro r d2 hs2 hg2
      have h2 := h1.quiet P (o := .readdir) rfl hs2 hg2
      have hy2 := P.ymono _ _ _ _ (P.yfile _ rw { rw with file := none } _ rfl hy1) hg2
      have hz2 := P.zmono _ _ _ _ rfl (P.zfile _ rw { rw with file := none } _ rfl hz1) hg2
      refine ⟨⟨hs, h2⟩, ?_⟩
      cases r with
      | none => exact ⟨hs, h2, hy2, fun hx => by cases hx⟩
      | some names =>
        simp only [SysStep] at hs2
        obtain ⟨rfl, hnd, hmem⟩ := hs2
        have : c.historyOf lib names = hs := history_eq h1.1.backups hnd hmem
        simp only [wp_pure, this]
        refine wp_mono _ ?_ (wp_rollOver P h2 hy2 hz2 rfl hn)
        exact fun _ _ _ x => x.2

theorem wp_put {tr : STrace} {d : Disk} {rw : RW} {bs : Bytes} (h : Between lib c S F0 X Y rw tr d) :
    wp umask G (fun tr d => ∃ hs, Held lib c S F0 X hs tr d) (RCfg.put rw bs) (fun br tr' d' => Between lib c S F0 X Y br.2 tr' d') tr d := by
  obtain ⟨hs, h, hy, hk⟩ := h
  rw [RCfg.put]
  split
  · rename_i hf
    obtain ⟨hn, data, p, hd, hz⟩ := hk hf
    rw [wp_bind, wp_sys]
    intro r d1 hs1 hg1
    obtain ⟨n, ok⟩ := r
    simp only [SysStep] at hs1
    obtain ⟨data1, p1, e1, hle, _, rfl⟩ := hs1
    rw [hn] at e1
    have hK : Held lib c S F0 X hs (tr ++ [⟨.write rw.name bs, (n, ok)⟩]) (d.put rw.name (some (.file (data1 ++ bs.take n) p1))) := by
      refine ⟨?_, P.xmono _ _ _ rfl h.2 hg1⟩
      rw [hn]
      exact h.1.write e1 rfl
    refine ⟨⟨hs, hK⟩, hs, hK, P.yfile _ rw _ _ rfl (P.ymono _ _ _ _ hy hg1), ?_⟩
    intro _
    refine ⟨hn, data1 ++ bs.take n, p1, by rw [put_dir, hn, if_pos rfl], ?_⟩
    rw [hd] at e1; cases e1
    simp only [List.length_append, List.length_take]
    rw [Nat.min_eq_left hle, hz]; simp
  · exact ⟨hs, h, hy, hk⟩

theorem wp_createFile {hs : List Str} {tr : STrace} {d : Disk} {rw : RW} (h : Held lib c S F0 X hs tr d) (hy : Y tr rw hs) (hf : rw.file = none) :
    wp umask G (fun tr d => ∃ hs, Held lib c S F0 X hs tr d) (c.createFile rw) (fun br tr' d' => Between lib c S F0 X Y br.2 tr' d') tr d := by
  rw [RCfg.createFile, wp_bind, wp_sys]
  intro r d1 hs1 hg1
  have h1 := h.quiet P (o := .mkdirAll c.dirPerm) rfl hs1 hg1
  have hy1 := P.ymono _ _ _ _ hy hg1
  refine ⟨⟨hs, h1⟩, ?_⟩
  cases r with
  | false => exact ⟨hs, h1, hy1, fun hx => by rw [hf] at hx; cases hx⟩
  | true =>
    simp only [Bool.true_eq_false, if_false]
    rw [wp_bind, wp_sys]
    intro r d2 hs2 hg2
    have hy2 := P.yfile _ rw { rw with name := c.fileName } _ rfl (P.ymono _ _ _ _ hy1 hg2)
    cases r with
    | false =>
      simp only [SysStep, Bool.false_eq_true, if_false] at hs2
      subst hs2
      have h2 : Held lib c S F0 X hs (tr ++ [⟨.mkdirAll c.dirPerm, true⟩] ++ [⟨.openAppend c.fileName c.filePerm, false⟩]) d2 :=
        ⟨h1.1.same rfl (by rw [cuts_snoc]; rfl), P.xmono _ _ _ rfl h1.2 hg2⟩
      exact ⟨⟨hs, h2⟩, hs, h2, P.yfile _ { rw with name := c.fileName } _ _ rfl hy2, fun hx => by cases hx⟩
    | true =>
      simp only [SysStep, if_true] at hs2
      have h2 : Held lib c S F0 X hs (tr ++ [⟨.mkdirAll c.dirPerm, true⟩] ++ [⟨.openAppend c.fileName c.filePerm, true⟩]) d2 := by
        refine ⟨?_, P.xmono _ _ _ rfl h1.2 hg2⟩
        split at hs2
        · rename_i hnone
          obtain ⟨_, rfl⟩ := hs2
          exact h1.1.create hnone (by rw [cuts_snoc]; rfl)
        · exact h1.1.same (by rw [hs2]) (by rw [cuts_snoc]; rfl)
        · exact hs2.elim
      refine ⟨⟨hs, h2⟩, ?_⟩
      simp only [Bool.true_eq_false, if_false]
      rw [wp_bind, wp_sys]
      intro r d3 hs3 hg3
      have h3 := h2.quiet P (o := .stat c.fileName) rfl hs3 hg3
      have hy3 := P.ymono _ _ _ _ hy2 hg3
      refine ⟨⟨hs, h3⟩, ?_⟩
      cases r with
      | none =>
        rw [wp_bind, wp_sys]
        intro r d4 hs4 hg4
        have h4 := h3.quiet P (o := .close c.fileName) rfl hs4 hg4
        exact ⟨⟨hs, h4⟩, hs, h4, P.yfile _ { rw with name := c.fileName } _ _ rfl (P.ymono _ _ _ _ hy3 hg4), fun hx => by cases hx⟩
      | some n =>
        simp only [SysStep] at hs3
        obtain ⟨rfl, data, p, e, hz⟩ := hs3
        exact ⟨hs, h3, P.yfile _ { rw with name := c.fileName } _ _ rfl hy3, fun _ => ⟨rfl, data, p, e, by simp [hz]⟩⟩

theorem wp_append {tr : STrace} {d : Disk} {rw : RW} {bs : Bytes} (h : Between lib c S F0 X Y rw tr d) :
    wp umask G (fun tr d => ∃ hs, Held lib c S F0 X hs tr d) (c.append rw bs) (fun br tr' d' => Between lib c S F0 X Y br.2 tr' d') tr d := by
  rw [RCfg.append]
  split
  · rename_i hf
    obtain ⟨hs, h, hy, hk⟩ := h
    rw [wp_bind]
    refine wp_mono _ ?_ (wp_createFile P h hy hf)
    rintro ⟨ok, rw'⟩ tr1 d1 h1
    dsimp only at h1 ⊢
    split
    · exact h1
    · exact wp_put P h1
  · exact wp_put P h

/-- Each write keeps what has to be kept, at every point. -/
theorem wp_write {tr : STrace} {d : Disk} {rw : RW} {bs : Bytes} (h : Between lib c S F0 X Y rw tr d) :
    wp umask G (fun tr d => ∃ hs, Held lib c S F0 X hs tr d) (c.write lib rw bs) (fun br tr' d' => Between lib c S F0 X Y br.2 tr' d') tr d := by
  obtain ⟨hs, h, hy, hk⟩ := h
  rw [RCfg.write, wp_bind]
  refine wp_mono _ ?_ (P.need rw hs tr d h hy hk)
  rintro ⟨b, rw1⟩ tr1 d1 ⟨h1, hd, hf, hn, hz, hy1, hz1⟩
  dsimp only at hf hn hz hy1 hz1 ⊢
  have hk1 : Knows c rw1 d1 := by
    intro hx
    rw [hn, hz, hd]; exact hk (by rw [← hf, hx])
  split
  · rename_i hb
    rw [wp_bind]
    refine wp_mono _ ?_ (wp_roll P h1 hy1 (hz1 hb) hk1)
    rintro ⟨ok, rw2⟩ tr2 d2 h2
    dsimp only at h2 ⊢
    split
    · exact h2
    · exact wp_append P h2
  · exact wp_append P ⟨hs, h1, hy1, hk1⟩

/-- So does a life. -/
theorem life_between {d0 : Disk} (h0 : ∃ hs, Held lib c S F0 X hs [] d0) {tr : STrace} {d : Disk} {rw : RW} (hl : Life umask lib c d0 tr d rw)
    (hG : ∀ tr', tr' <+: tr → G tr') : Between lib c S F0 X Y rw tr d := by
  induction hl with
  | start =>
    obtain ⟨hs, h⟩ := h0
    exact ⟨hs, h, P.yfresh _ _ h.2, fun hx => by cases hx⟩
  | @write tr d rw bs tr' res rw' d' hl hr ih =>
    exact wp_runs (wp_write P (ih fun t ht => hG t (ht.trans (List.prefix_append _ _)))) hr fun t ht => hG _ (List.prefix_append_right_inj tr |>.mpr ht)
  | @crash tr d rw bs tr' d' hl hr ih =>
    have h := ih fun t ht => hG t (ht.trans (List.prefix_append _ _))
    have hi : ∃ hs, Held lib c S F0 X hs tr d := by obtain ⟨hs, h, _⟩ := h; exact ⟨hs, h⟩
    obtain ⟨hs, h'⟩ := wp_stops (wp_write P h) hi hr fun t ht => hG _ (List.prefix_append_right_inj tr |>.mpr ht)
    exact ⟨hs, h', P.yfresh _ _ h'.2, fun hx => by cases hx⟩
  | restart _ ih =>
    obtain ⟨hs, h, _⟩ := ih hG
    exact ⟨hs, h, P.yfresh _ _ h.2, fun hx => by cases hx⟩

end

end Log4g
