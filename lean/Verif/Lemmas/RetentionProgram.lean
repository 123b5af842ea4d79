import Verif.Lemmas.RetentionOutput
import Verif.Props.Retention
import Verif.Props.Machine

/-! # Lemmas for C113, whole programs -/

namespace Log4g
open Spec
open scoped List

section
variable {umask : Nat} {lib : RLib} {c : RCfg}

/-- A write in the life of a directory that wrote the whole message, and what was written after it. -/
theorem lifeOf_at {d0 d : Disk} {ds ds1 ds2 : List Deed} {msg : Bytes} {n : Nat} {st : STrace} {rw : RW} (h : LifeOf umask lib c d0 ds st d rw)
    (hd : ds = ds1 ++ .wrote msg n true :: ds2) :
    ∃ t1 t2 t3 d1 rw1 rw1' d1', st = t1 ++ t2 ++ t3 ∧ Runs umask (c.write lib rw1 msg) d1 t2 ((n, true), rw1') d1' ∧
      (chunks t3).flatten.length ≤ (messages ds2).flatten.length := by
  induction h generalizing ds2 with
  | start => simp at hd
  | @write ds tr d rw msg' tr' n' ok rw' d' hl hr ih =>
    rcases List.eq_nil_or_concat ds2 with rfl | ⟨D, x, rfl⟩
    · obtain ⟨_, hx⟩ := List.append_inj' hd rfl
      simp only [List.cons.injEq, and_true, Deed.wrote.injEq] at hx
      obtain ⟨rfl, rfl, rfl⟩ := hx
      exact ⟨tr, tr', [], _, _, _, _, by simp, hr, by simp [chunks]⟩
    · rw [List.concat_eq_append] at hd ⊢
      rw [← List.cons_append, ← List.append_assoc] at hd
      obtain ⟨h1, h2⟩ := List.append_inj' hd rfl
      simp only [List.cons.injEq, and_true] at h2
      subst h2
      obtain ⟨t1, t2, t3, d1, rw1, rw1', d1', rfl, h4, h5⟩ := ih h1
      refine ⟨t1, t2, t3 ++ tr', d1, rw1, rw1', d1', by simp, h4, ?_⟩
      rw [chunks_append, List.flatten_append, List.length_append, messages_append, List.flatten_append, List.length_append]
      have : (chunks tr').flatten.length ≤ (messages [Deed.wrote msg' n' ok]).flatten.length := by
        rcases write_chunks hr with ⟨h, _⟩ | ⟨h, _⟩
        · rw [h]; simp
        · rw [h]; simp [messages, Nat.min_le_right]
      omega
  | @crash ds tr d rw msg' tr' d' hl hs ih =>
    rcases List.eq_nil_or_concat ds2 with rfl | ⟨D, x, rfl⟩
    · obtain ⟨_, hx⟩ := List.append_inj' hd rfl
      simp at hx
    · rw [List.concat_eq_append] at hd ⊢
      rw [← List.cons_append, ← List.append_assoc] at hd
      obtain ⟨h1, h2⟩ := List.append_inj' hd rfl
      simp only [List.cons.injEq, and_true] at h2
      subst h2
      obtain ⟨t1, t2, t3, d1, rw1, rw1', d1', rfl, h4, h5⟩ := ih h1
      refine ⟨t1, t2, t3 ++ tr', d1, rw1, rw1', d1', by simp, h4, ?_⟩
      rw [chunks_append, List.flatten_append, List.length_append, messages_append, List.flatten_append, List.length_append]
      have := (stops_chunks (life_knows (lifeOf_life hl)) hs).length_le
      have h6 : (messages [Deed.died msg']).flatten.length = msg'.length := by simp [messages]
      omega
  | @restart ds tr d rw hl ih =>
    rcases List.eq_nil_or_concat ds2 with rfl | ⟨D, x, rfl⟩
    · obtain ⟨_, hx⟩ := List.append_inj' hd rfl
      simp at hx
    · rw [List.concat_eq_append] at hd ⊢
      rw [← List.cons_append, ← List.append_assoc] at hd
      obtain ⟨h1, h2⟩ := List.append_inj' hd rfl
      simp only [List.cons.injEq, and_true] at h2
      subst h2
      obtain ⟨t1, t2, t3, d1, rw1, rw1', d1', rfl, h4, h5⟩ := ih h1
      refine ⟨t1, t2, t3, d1, rw1, rw1', d1', by simp, h4, ?_⟩
      rw [messages_append, List.flatten_append, List.length_append]
      omega

theorem own_inLog {v : Volume} {tmp : Option Entries} {msg : Bytes} (h : InLog lib c (v.own c tmp).dir msg) : InLog lib c v.dir msg := by
  obtain ⟨n, data, perm, hn, hd, hm⟩ := h
  refine ⟨n, data, perm, hn, ?_, hm⟩
  rcases hn with rfl | ⟨v, hv⟩
  · rwa [own_dir (mine_current c)] at hd
  · rwa [own_dir (mine_backup hv).1] at hd

/-- Several writers in a directory: each by itself. -/
theorem shared_retains {cs : Nat → Option RCfg} (hap : ∀ (i j : Nat) (c c' : RCfg), i ≠ j → cs i = some c → cs j = some c' → Apart c c') (hna : ArchivesApart cs)
    {v0 : Volume} (hv : OneName v0) {tr : List ShLab} {s : Shared} (hx : ShExec umask lib cs { vol := v0 } tr s) {i : Nat} (hi : cs i = some c)
    {max : Int} (hk : c.kind = .size max) (hmax : 0 ≤ max) {hs0 : List Str} (hb : Backups lib c v0.dir hs0) {B : Int} (hB : 0 ≤ B)
    (hnum : ∀ n ∈ hs0, ∀ v, Backup lib c n v → v ≤ B) (hnr : B + rolls (callsOf i tr) < 2 ^ 63) {ds1 ds2 : List Deed} {msg : Bytes} {n : Nat}
    (hd : deedsOf i tr ++ pending s i = ds1 ++ .wrote msg n true :: ds2) (hr : ((messages ds2).flatten.length : Int) < c.maxRolls * max) :
    InLog lib c s.vol.dir msg := by
  obtain ⟨rw, tmp, hl⟩ := sh_life hap hna hv hx hi
  obtain ⟨t1, t2, t3, d1, rw1, rw1', d1', e, h1, h2⟩ := lifeOf_at hl hd
  have hl' := lifeOf_life hl
  have hro := sifts_rolls c (callsOf i tr)
  rw [e] at hl' hro
  exact own_inLog (C113_bytes hk hmax (own_backups.mpr hb) hB hnum h1 hl' (by rw [hro]; exact hnr) (by omega))
end

variable {V : Type} {env : PEnv V} {host : Host}

theorem machine_retains (inv : MInv env host up v0 tr m) (hv : OneName (v0 k)) (hr : m.p.w.rollOf env.tc o = some c) (hk : host.place c.dirPath = k)
    (hn : Neighbourly env.tc host m.p.w k) {hs0 : List Str} (hb : Backups host.lib c (v0 k).dir hs0) (hname : Nameable host.lib c hs0 (callsOf o (ioIn k tr)))
    {max : Int} (hmax : c.kind = .size max) {ds1 ds2 : List Deed} {msg : Bytes} {n : Nat} (hd : deedsIn k o tr m = ds1 ++ .wrote msg n true :: ds2)
    (hl : ((messages ds2).flatten.length : Int) < c.maxRolls * max) : InLog host.lib c (m.vol k).dir msg := by
  obtain ⟨hap, hna⟩ := neighbours hn
  have hw : writersIn env.tc host m.p.w k o = some c := writersIn_iff.mpr ⟨hr, hk⟩
  rw [← view_pending hr hk] at hd
  cases hname with
  | size h1 h2 h3 h4 h5 =>
    rw [h1] at hmax
    cases hmax
    exact shared_retains hap hna hv (inv.dirs k) hw h1 (by omega) hb h3 h4 h5 hd hl
  | time h1 _ _ _ _ => rw [h1] at hmax; cases hmax

/-- If nothing fails: the messages given to the writer. -/
theorem machine_given (inv : MInv env host up v0 tr m) (hv : OneName (v0 k)) (hr : m.p.w.rollOf env.tc o = some c) (hk : host.place c.dirPath = k)
    (hn : Neighbourly env.tc host m.p.w k) {hs0 : List Str} (hb : Backups host.lib c (v0 k).dir hs0) (hname : Nameable host.lib c hs0 (callsOf o (ioIn k tr)))
    (hf : LogCallsOk (callsOf o (ioIn k tr))) {max : Int} (hmax : c.kind = .size max) :
    ∃ before, m.p.given env o = before ++ doing (m.wr o) ∧ ∀ W1 msg W2, before = W1 ++ msg :: W2 →
      ((W2.flatten.length + (doing (m.wr o)).flatten.length : Nat) : Int) < c.maxRolls * max → InLog host.lib c (m.vol k).dir msg := by
  have ok := deeds_ok inv hv hr hk hn hname hf
  have hg := inv.given o c hr
  rw [hk] at hg
  have hmap : deedsOf o (ioIn k tr) = (messages (deedsOf o (ioIn k tr))).map fun x => .wrote x x.length true := by
    generalize deedsOf o (ioIn k tr) = l at ok
    induction l with
    | nil => rfl
    | cons x l ih =>
      obtain ⟨msg, rfl⟩ := ok _ (List.mem_cons_self ..)
      have := ih fun y hy => ok y (List.mem_cons_of_mem _ hy)
      simp only [messages, List.flatMap_cons, List.singleton_append, List.map_cons, List.cons.injEq, true_and]
      exact this
  refine ⟨_, hg, fun W1 msg W2 e hl => ?_⟩
  have hd : deedsIn k o tr m = (W1.map fun x => .wrote x x.length true) ++ .wrote msg msg.length true ::
      ((W2.map fun x => .wrote x x.length true) ++ match (m.wr o).job with | none => [] | some (msg, _) => [.died msg]) := by
    unfold deedsIn
    rw [hmap, e]
    cases (m.wr o).job <;> simp
  refine machine_retains inv hv hr hk hn hb hname hmax hd ?_
  have h1 : messages (W2.map fun x => .wrote x x.length true) = W2 := by
    clear e hl hd
    induction W2 with
    | nil => rfl
    | cons x l ih => simp only [messages, List.map_cons, List.flatMap_cons, List.singleton_append, List.cons.injEq, true_and]; exact ih
  rw [messages_append, h1, List.flatten_append, List.length_append]
  refine Int.lt_of_le_of_lt ?_ hl
  unfold doing
  cases (m.wr o).job <;> simp [messages]

end Log4g
