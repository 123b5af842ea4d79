import Verif.Spec.RollWrites
import Verif.Lemmas.RollOutput

/-! # From what reached the disk to what the program wrote -/

namespace Log4g
open Spec

variable {umask : Nat} {lib : RLib} {c : RCfg}

theorem lifeOf_life {d0 d : Disk} {ds : List Deed} {tr : STrace} {rw : RW} (h : LifeOf umask lib c d0 ds tr d rw) : Life umask lib c d0 tr d rw := by
  induction h with
  | start => exact .start
  | write _ hr ih => exact .write ih hr
  | crash _ hs ih => exact .crash ih hs
  | restart _ ih => exact .restart ih

theorem life_lifeOf {d0 d : Disk} {tr : STrace} {rw : RW} (h : Life umask lib c d0 tr d rw) : ∃ ds, LifeOf umask lib c d0 ds tr d rw := by
  induction h with
  | start => exact ⟨_, .start⟩
  | write _ hr ih => exact ih.imp' (· ++ [_]) fun ds h => .write h hr
  | crash _ hs ih => exact ih.imp' (· ++ [_]) fun ds h => .crash h hs
  | restart _ ih => exact ih.imp' (· ++ [_]) fun ds h => .restart h

/-- A write cut off has written nothing or one piece of the message. -/
theorem stops_piece {rw : RW} {bs : Bytes} {d d' : Disk} {tr : STrace} (hk : Knows c rw d) (h : Stops umask (c.write lib rw bs) d tr d') :
    chunks tr = [] ∨ ∃ n, chunks tr = [bs.take n] := by
  obtain ⟨q, hq⟩ := stops_reaches h
  obtain ⟨t2, ⟨⟨n, ok⟩, rw'⟩, d2, hr⟩ := (hq.safe (safe_write hk bs)).runs
  have h1 := write_chunks (hq.runs hr)
  rw [chunks_append] at h1
  rcases h1 with ⟨h1, _⟩ | ⟨h1, _⟩
  · exact .inl (List.append_eq_nil_iff.mp h1).1
  · cases h2 : chunks tr with
    | nil => exact .inl rfl
    | cons x xs =>
      rw [h2] at h1
      simp only [List.cons_append, List.cons.injEq, List.append_eq_nil_iff] at h1
      exact .inr ⟨n, by rw [h1.1, h1.2.1]⟩

theorem lifeOf_pieces {d0 d : Disk} {ds : List Deed} {tr : STrace} {rw : RW} (h : LifeOf umask lib c d0 ds tr d rw) : PiecesOf ds (chunks tr) := by
  induction h with
  | start => exact .nil
  | @write ds tr d rw msg tr' n ok rw' d' _ hr ih =>
    rw [chunks_append]
    rcases write_chunks hr with ⟨h3, rfl, rfl⟩ | ⟨h3, hn, hok⟩
    · rw [h3, List.append_nil]; exact .failed ih
    · rw [h3]; exact .wrote ih hn hok
  | @crash ds tr d rw msg tr' d' hl hs ih =>
    rw [chunks_append]
    rcases stops_piece (life_knows (lifeOf_life hl)) hs with h3 | ⟨n, h3⟩
    · rw [h3, List.append_nil]; exact .diedBefore ih
    · rw [h3]; exact .died n ih
  | restart _ ih => exact .restarted ih

theorem gapFree_keeps {d0 d : Disk} {ds : List Deed} {tr : STrace} {rw : RW} (h : LifeOf umask lib c d0 ds tr d rw) {F0 : List Bytes} {D : Dir}
    (hg : GapFree lib c F0 tr D) : ∃ ps, PiecesOf ds ps ∧ KeepsLog lib c F0 ps D :=
  ⟨_, lifeOf_pieces h, hg⟩

end Log4g
