import Verif.Props.Retention
import Verif.Props.EndToEnd

/-! # Lemmas for C113 from what is logged -/

namespace Log4g
open Spec

variable {V : Type} {cfg : ACfg V} {umask : Nat} {lib : RLib} {c : RCfg}

theorem session_at (hmax : ∀ max, c.kind = .size max → 0 < max) {d0 d : Disk} {ms W1 W2 : List Bytes} {bs : Bytes} {st : STrace} {rw : RW}
    (h : Session umask lib c d0 ms st d rw) (hn : LogCallsOk st) (hm : ms = W1 ++ bs :: W2) :
    ∃ t1 t2 t3 d1 rw1 n rw1' d1', st = t1 ++ t2 ++ t3 ∧ Runs umask (c.write lib rw1 bs) d1 t2 ((n, true), rw1') d1' ∧ chunks t3 = W2 := by
  induction h generalizing W2 with
  | start => simp at hm
  | @write ms tr d rw m tr' res rw' d' hs hr ih =>
    have hok := session_ok hmax hs hr hn
    obtain ⟨n, ok⟩ := res
    simp only at hok
    subst hok
    rcases List.eq_nil_or_concat W2 with rfl | ⟨W, x, rfl⟩
    · obtain ⟨_, hx⟩ := List.append_inj' hm rfl
      simp only [List.cons.injEq, and_true] at hx
      subst hx
      exact ⟨tr, tr', [], _, _, _, _, _, by simp, hr, rfl⟩
    · rw [List.concat_eq_append] at hm ⊢
      rw [← List.cons_append, ← List.append_assoc] at hm
      obtain ⟨h1, h2⟩ := List.append_inj' hm rfl
      simp only [List.cons.injEq, and_true] at h2
      subst h2
      obtain ⟨t1, t2, t3, d1, rw1, k, rw1', d1', rfl, h4, h5⟩ := ih (logCallsOk_append.mp hn).1 h1
      refine ⟨t1, t2, t3 ++ tr', d1, rw1, k, rw1', d1', by simp, h4, ?_⟩
      rw [chunks_append, h5]
      rcases write_chunks hr with ⟨_, _, h⟩ | ⟨h, _, h2⟩
      · cases h
      · rw [h, h2 rfl, List.take_length]

/-- An element of a list cut into groups is in one of them. -/
theorem flatten_at {α : Type} {gs : List (List α)} {pre post : List α} {x : α} (h : gs.flatten = pre ++ x :: post) :
    ∃ G1 g1 g2 G2, gs = G1 ++ (g1 ++ x :: g2) :: G2 ∧ g2 ++ G2.flatten = post := by
  induction gs generalizing pre with
  | nil => simp at h
  | cons g gs ih =>
    rw [List.flatten_cons] at h
    rcases List.append_eq_append_iff.mp h with ⟨as, h1, h2⟩ | ⟨bs, h1, h2⟩
    · obtain ⟨G1, g1, g2, G2, rfl, h3⟩ := ih h2
      exact ⟨g :: G1, g1, g2, G2, rfl, h3⟩
    · cases bs with
      | nil =>
        simp only [List.nil_append] at h2
        obtain ⟨G1, g1, g2, G2, rfl, h3⟩ := ih (pre := []) h2.symm
        exact ⟨g :: G1, g1, g2, G2, rfl, h3⟩
      | cons b bs =>
        simp only [List.cons_append, List.cons.injEq] at h2
        obtain ⟨rfl, rfl⟩ := h2
        exact ⟨[], pre, bs, gs, by rw [h1]; rfl, rfl⟩

theorem inLog_part {d : Dir} {x msg y : Bytes} (h : InLog lib c d (x ++ msg ++ y)) : InLog lib c d msg := by
  obtain ⟨n, data, p, h1, h2, u, v, h3⟩ := h
  exact ⟨n, data, p, h1, h2, u ++ x, y ++ v, by rw [h3]; simp⟩

/-- What a session has written last is in the log. -/
theorem session_retains {max : Int} (hk : c.kind = .size max) (hmax : 0 < max) {d0 d : Disk} {hs0 : List Str} (hb : Backups lib c d0.dir hs0) {B : Int} (hB : 0 ≤ B)
    (hnum : ∀ n ∈ hs0, ∀ v, Backup lib c n v → v ≤ B) {W1 W2 : List Bytes} {bs : Bytes} {st : STrace} {rw : RW} (h : Session umask lib c d0 (W1 ++ bs :: W2) st d rw)
    (hn : LogCallsOk st) (hnr : B + rolls st < 2 ^ 63) (hr : (W2.flatten.length : Int) < c.maxRolls * max) : InLog lib c d.dir bs := by
  obtain ⟨t1, t2, t3, d1, rw1, n, rw1', d1', rfl, h2, h3⟩ := session_at (fun m hm => by rw [hk] at hm; cases hm; exact hmax) h hn rfl
  exact C113_bytes hk (by omega) hb hB hnum h2 h.life hnr (by rw [h3]; exact hr)

theorem groups_retain {f : Formatter V} {max : Int} (hk : c.kind = .size max) (hmax : 0 < max) {d0 d : Disk} {hs0 : List Str} (hb : Backups lib c d0.dir hs0) {B : Int} (hB : 0 ≤ B)
    (hnum : ∀ n ∈ hs0, ∀ v, Backup lib c n v → v ≤ B) {gs : List (List (Event V))} {st : STrace} {rw : RW} (h : Session umask lib c d0 (gs.map (·.flatMap f)) st d rw)
    (hn : LogCallsOk st) (hnr : B + rolls st < 2 ^ 63) {pre post : List (Event V)} {e : Event V} (he : gs.flatten = pre ++ e :: post)
    (hr : ((post.flatMap f).length : Int) < c.maxRolls * max) : InLog lib c d.dir (f e) := by
  obtain ⟨G1, g1, g2, G2, rfl, rfl⟩ := flatten_at he
  rw [List.map_append, List.map_cons] at h
  have hl : ((G2.map (·.flatMap f)).flatten.length : Int) ≤ ((g2 ++ G2.flatten).flatMap f).length := by
    rw [List.flatMap_append, List.length_append]
    have : (G2.map (·.flatMap f)).flatten = G2.flatten.flatMap f := by
      clear he h hr
      induction G2 with
      | nil => rfl
      | cons g G ih => rw [List.map_cons, List.flatten_cons, ih, List.flatten_cons, List.flatMap_append]
    rw [this]
    omega
  have := session_retains hk hmax hb hB hnum h hn hnr (by omega)
  rw [List.flatMap_append, List.flatMap_cons, ← List.append_assoc] at this
  exact inLog_part this

end Log4g
