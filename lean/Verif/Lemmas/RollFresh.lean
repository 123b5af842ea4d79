import Verif.Lemmas.RollStored
import Verif.Props.RollingTime

/-! # Backups made come after those there -/

namespace Log4g
open Spec Strconv
open scoped List

variable {lib : RLib} {c : RCfg} {umask : Nat}

theorem size_fresh {max : Int} (hk : c.kind = .size max) {d0 : Disk} {hs0 : List Str} (hb : Backups lib c d0.dir hs0) {B : Int} (hB : 0 ≤ B)
    (hnum : ∀ n ∈ hs0, ∀ v, Backup lib c n v → v ≤ B) {ms : List Bytes} {tr tr' : STrace} {d d' : Disk} {rw rw' : RW} {m : Bytes} {res : Nat × Bool} {hs : List Str} {b : Str}
    (h : Session umask lib c d0 ms tr d rw) (hr : Runs umask (c.write lib rw m) d tr' (res, rw') d') (hn : NoneFailed (tr ++ tr')) (hnr : B + rolls (tr ++ tr') < 2 ^ 63)
    (hb1 : Backups lib c d.dir hs) (hm : (⟨.rename c.fileName b, true⟩ : (o : Sys) × o.Resp) ∈ tr') :
    ∃ v, Backup lib c b v ∧ ∀ n ∈ hs, ∀ w, Backup lib c n w → w < v := by
  obtain ⟨n1, n2⟩ := noneFailed_append.mp hn
  have hra : rolls (tr ++ tr') = rolls tr + rolls tr' := rolls_append _ _
  obtain ⟨hs1', ⟨k1, k2, _⟩, _⟩ := size_between True hk hb hB hnum h.life (fun _ => removesOk_of_noneFailed n1) (by omega)
  rw [backups_unique k1.backups hb1] at k2
  have hroll : 0 < rolls tr' := by
    obtain ⟨u, w, rfl⟩ := List.append_of_mem hm
    rw [rolls_append]; simp only [rolls, if_true]; omega
  obtain ⟨_, t0, rw1, names, tag, _, _, hrd, rfl, _, hcase⟩ := write_rename (life_name h.life) hr hm
  rcases hcase with ⟨_, _, htag⟩ | ⟨_, hk', _⟩
  · simp only [SysStep, true_and] at hrd
    obtain ⟨v, v1, v2⟩ := new_number (lib := lib) hk (names := names) (fun n hnm w hw => by
      have hmem : n ∈ hs := (hb1.all n).mpr ⟨⟨w, hw⟩, (hrd.2 n).mp hnm⟩
      have := k2 n hmem w hw
      omega)
    rw [← htag] at v1
    exact ⟨v, v1, fun n hnm w hw => v2 n ((hrd.2 n).mpr ((hb1.all n).mp hnm).2) w hw⟩
  · rw [hk] at hk'; cases hk'

theorem time_fresh {pat : Str} (hk : c.kind = .time pat) {start : Int → Int} {T0 T1 : Int} (hp : Periods lib pat start T0 T1) {d0 : Disk}
    {hs0 : List Str} (hb : Backups lib c d0.dir hs0) (hold : ∀ n ∈ hs0, ∀ v, Backup lib c n v → v < start T0)
    {ms : List Bytes} {tr tr' : STrace} {d d' : Disk} {rw rw' : RW} {m : Bytes} {res : Nat × Bool} {hs : List Str} {b : Str}
    (h : Session umask lib c d0 ms tr d rw) (hr : Runs umask (c.write lib rw m) d tr' (res, rw') d') (hn : NoneFailed (tr ++ tr'))
    (hclock : (clocks (tr ++ tr')).Pairwise (· ≤ ·)) (hT : ∀ t ∈ clocks (tr ++ tr'), T0 ≤ t ∧ t ≤ T1)
    (hb1 : Backups lib c d.dir hs) (hm : (⟨.rename c.fileName b, true⟩ : (o : Sys) × o.Resp) ∈ tr') :
    ∃ v, Backup lib c b v ∧ ∀ n ∈ hs, ∀ w, Backup lib c n w → w < v := by
  obtain ⟨n1, n2⟩ := noneFailed_append.mp hn
  rw [clocks_append] at hclock hT
  obtain ⟨hs1', ⟨k1, _⟩, hy, _⟩ := time_between True hk hp hb hold h.life (fun _ => removesOk_of_noneFailed n1) (List.pairwise_append.mp hclock).1 (fun t ht => hT t (by simp [ht]))
  rw [backups_unique k1.backups hb1] at hy
  obtain ⟨_, t0, rw1, names, tag, hneed, _, hrd, rfl, _, hcase⟩ := write_rename (life_name h.life) hr hm
  rcases hcase with ⟨_, hk', _⟩ | ⟨_, _, htag⟩
  · rw [hk] at hk'; cases hk'
  · obtain ⟨_, hneed⟩ := runs_needsToRoll hneed
    rcases hneed with ⟨_, hk', _⟩ | ⟨pat', t, hk', _, hx⟩
    · rw [hk] at hk'; cases hk'
    · rcases hx with ⟨_, hx, _⟩ | ⟨hne, _, hrw⟩
      · cases hx
      · rcases hy with hy | ⟨t1, e1, hmem, hlt⟩
        · exact absurd hy hne
        · have hT1 := hT t1 (by simp [hmem])
          refine ⟨start t1, ⟨_, rfl, ?_⟩, hlt⟩
          rw [htag, hrw, e1, hk]
          exact .time (hp.nonempty _ hT1.1 hT1.2) (hp.parse _ hT1.1 hT1.2)

theorem noneFailed_prefix {t tr : STrace} (h : NoneFailed tr) (hp : t <+: tr) : NoneFailed t := fun x hx => h x (hp.subset hx)

theorem clocks_prefix {t tr : STrace} (hp : t <+: tr) : clocks t <+: clocks tr := by
  obtain ⟨u, rfl⟩ := hp
  rw [clocks_append]; exact List.prefix_append _ _

theorem time_back {pat : Str} (hk : c.kind = .time pat) {start : Int → Int} {T0 T1 : Int} (hp : Periods lib pat start T0 T1) {d0 : Disk}
    {hs0 : List Str} (hb : Backups lib c d0.dir hs0) (hold : ∀ n ∈ hs0, ∀ v, Backup lib c n v → v < start T0) {tr : STrace} (hn : NoneFailed tr)
    (hclock : (clocks tr).Pairwise (· ≤ ·)) (hT : ∀ t ∈ clocks tr, T0 ≤ t ∧ t ≤ T1) {ms' : List Bytes} {tr' : STrace} {d' : Disk} {rw' : RW}
    (h : Session umask lib c d0 ms' tr' d' rw') (hpre : tr' <+: tr) : ∃ hs, Backups lib c d'.dir hs := by
  obtain ⟨hs, ⟨k, _⟩, _⟩ := time_between True hk hp hb hold h.life (fun _ => removesOk_of_noneFailed (noneFailed_prefix hn hpre))
    (hclock.sublist (clocks_prefix hpre).sublist) (fun t ht => hT t ((clocks_prefix hpre).subset ht))
  exact ⟨hs, k.backups⟩

theorem time_later {pat : Str} (hk : c.kind = .time pat) {start : Int → Int} {T0 T1 : Int} (hp : Periods lib pat start T0 T1) {d0 : Disk}
    {hs0 : List Str} (hb : Backups lib c d0.dir hs0) (hold : ∀ n ∈ hs0, ∀ v, Backup lib c n v → v < start T0) {tr : STrace} (hn : NoneFailed tr)
    (hclock : (clocks tr).Pairwise (· ≤ ·)) (hT : ∀ t ∈ clocks tr, T0 ≤ t ∧ t ≤ T1) {ms' : List Bytes} {tr' t : STrace} {d' d'' : Disk} {rw' rw'' : RW} {m : Bytes} {res : Nat × Bool}
    {hs : List Str} {b : Str} (h : Session umask lib c d0 ms' tr' d' rw') (hr : Runs umask (c.write lib rw' m) d' t (res, rw'') d'') (hpre : tr' ++ t <+: tr) (hb1 : Backups lib c d'.dir hs)
    (hm : (⟨.rename c.fileName b, true⟩ : (o : Sys) × o.Resp) ∈ t) : ∃ v, Backup lib c b v ∧ ∀ n ∈ hs, ∀ w, Backup lib c n w → w < v :=
  time_fresh hk hp hb hold h hr (noneFailed_prefix hn hpre) (hclock.sublist (clocks_prefix hpre).sublist) (fun t ht => hT t ((clocks_prefix hpre).subset ht)) hb1 hm

theorem size_back {max : Int} (hk : c.kind = .size max) {d0 : Disk} {hs0 : List Str} (hb : Backups lib c d0.dir hs0) {B : Int} (hB : 0 ≤ B)
    (hnum : ∀ n ∈ hs0, ∀ v, Backup lib c n v → v ≤ B) {tr : STrace} (hn : NoneFailed tr) (hnr : B + rolls tr < 2 ^ 63) {ms' : List Bytes} {tr' : STrace} {d' : Disk} {rw' : RW}
    (h : Session umask lib c d0 ms' tr' d' rw') (hpre : tr' <+: tr) : ∃ hs, Backups lib c d'.dir hs := by
  obtain ⟨hs, ⟨k, _⟩, _⟩ := size_between True hk hb hB hnum h.life (fun _ => removesOk_of_noneFailed (noneFailed_prefix hn hpre)) (by have := rolls_prefix hpre; omega)
  exact ⟨hs, k.backups⟩

theorem size_later {max : Int} (hk : c.kind = .size max) {d0 : Disk} {hs0 : List Str} (hb : Backups lib c d0.dir hs0) {B : Int} (hB : 0 ≤ B)
    (hnum : ∀ n ∈ hs0, ∀ v, Backup lib c n v → v ≤ B) {tr : STrace} (hn : NoneFailed tr) (hnr : B + rolls tr < 2 ^ 63) {ms' : List Bytes} {tr' t : STrace} {d' d'' : Disk} {rw' rw'' : RW}
    {m : Bytes} {res : Nat × Bool} {hs : List Str} {b : Str} (h : Session umask lib c d0 ms' tr' d' rw') (hr : Runs umask (c.write lib rw' m) d' t (res, rw'') d'') (hpre : tr' ++ t <+: tr)
    (hb1 : Backups lib c d'.dir hs) (hm : (⟨.rename c.fileName b, true⟩ : (o : Sys) × o.Resp) ∈ t) : ∃ v, Backup lib c b v ∧ ∀ n ∈ hs, ∀ w, Backup lib c n w → w < v :=
  size_fresh hk hb hB hnum h hr (noneFailed_prefix hn hpre) (by have := rolls_prefix hpre; omega) hb1 hm

theorem atEnd_nil (a : Str → ANode) : AtEnd a [] a := fun d d' h h' old ho => by
  rw [archived, h', ← h, List.append_nil]; exact ho

theorem atEnd_append {a a1 a2 : Str → ANode} {n1 n2 : Entries} (h1 : AtEnd a n1 a1) (h2 : AtEnd a1 n2 a2) (_ : ∀ x ∈ n1, ∀ y ∈ n2, x.1 ≠ y.1) : AtEnd a (n1 ++ n2) a2 := by
  intro d d' h h' old ho
  have := h2 { d with arch := a1 } d' rfl h' _ (h1 d { d with arch := a1 } h rfl old ho)
  rw [this, List.append_assoc]

end Log4g
