import Verif.Lemmas.RollKeep

/-! # Archives, one for each backup; histories of writes with archives -/

namespace Log4g
open Spec Strconv

variable {lib : RLib} {c : RCfg} {umask : Nat}

/-- `x` comes before `y`. -/
def Sooner (lib : RLib) (c : RCfg) (x y : Str) : Prop := ∀ v w, Backup lib c x v → Backup lib c y w → v < w

/-- As long as nothing fails and every backup made comes after those there, what is dropped goes to the archives, in
ascending order. -/
theorem session_keeps {P : (Str → ANode) → Entries → (Str → ANode) → Prop} (hP0 : ∀ a, P a [] a) (hP : Deletes umask c P)
    (hPP : ∀ {a a1 a2 n1 n2}, P a n1 a1 → P a1 n2 a2 → (∀ x ∈ n1, ∀ y ∈ n2, x.1 ≠ y.1) → P a (n1 ++ n2) a2) (hmax : ∀ max, c.kind = .size max → 0 < max)
    {d0 : Disk} {hs0 : List Str} (hb : Backups lib c d0.dir hs0) {ms : List Bytes} {tr : STrace} {d : Disk} {rw : RW} (hl : Session umask lib c d0 ms tr d rw) (hn : NoneFailed tr)
    (hback : ∀ {ms' tr' d' rw'}, Session umask lib c d0 ms' tr' d' rw' → tr' <+: tr → ∃ hs, Backups lib c d'.dir hs)
    (hfresh : ∀ {ms' tr' d' rw' m t res rw'' d'' hs b}, Session umask lib c d0 ms' tr' d' rw' → Runs umask (c.write lib rw' m) d' t (res, rw'') d'' → tr' ++ t <+: tr → Backups lib c d'.dir hs →
      (⟨.rename c.fileName b, true⟩ : (o : Sys) × o.Resp) ∈ t → ∃ v, Backup lib c b v ∧ ∀ n ∈ hs, ∀ w, Backup lib c n w → w < v) :
    ∃ new hs, P d0.arch new d.arch ∧ Backups lib c d.dir hs ∧ (∀ e ∈ new, ∃ v, Backup lib c e.1 v) ∧ (new.map Prod.fst ++ hs).Pairwise (Sooner lib c) ∧
      (new.map Prod.snd).flatten ++ (files c d.dir hs).flatten = (files c d0.dir hs0).flatten ++ ms.flatten := by
  suffices h : ∃ new hs, P d0.arch new d.arch ∧ Backups lib c d.dir hs ∧ (∀ e ∈ new, ∃ v, Backup lib c e.1 v) ∧ (new.map Prod.fst ++ hs).Pairwise (Sooner lib c) ∧ (hs = [] → new = []) ∧
      (new.map Prod.snd).flatten ++ (files c d.dir hs).flatten = (files c d0.dir hs0).flatten ++ ms.flatten by
    obtain ⟨new, hs, h1, h2, h3, h4, _, h5⟩ := h
    exact ⟨new, hs, h1, h2, h3, h4, h5⟩
  induction hl with
  | start => exact ⟨[], hs0, hP0 _, hb, by simp, hb.order, fun _ => rfl, by simp⟩
  | @write ms tr d rw m tr' res rw' d' hs hr ih =>
    obtain ⟨n1, n2⟩ := noneFailed_append.mp hn
    obtain ⟨new, hs1, h1, h2, h3, h4, h5, h6⟩ := ih n1 (fun h hp => hback h (hp.trans (List.prefix_append _ _))) (fun h hr hp => hfresh h hr (hp.trans (List.prefix_append _ _)))
    obtain ⟨hs2, hb2⟩ := hback (Session.write hs hr) (List.prefix_refl _)
    obtain ⟨new', g1, g2, g3⟩ := write_keeps hP0 hP (session_knows hs) hr n2 h2 (fun b hm => hfresh hs hr (List.prefix_refl _) h2 hm) hb2
    have hres : m.take res.1 = m := by
      have := (write_dir (session_knows hs) hr).2.1 (session_ok hmax hs hr (logCallsOk_of hn))
      rw [this.2, List.take_length]
    have heq : ((new ++ new').map Prod.snd).flatten ++ (files c d'.dir hs2).flatten = (files c d0.dir hs0).flatten ++ (ms ++ [m]).flatten := by
      rw [hres] at g3
      simp only [List.map_append, List.flatten_append, List.append_assoc, g3, List.flatten_cons, List.flatten_nil, List.append_nil]
      rw [← List.append_assoc, h6, List.append_assoc]
    rcases g2 with ⟨rfl, rfl⟩ | ⟨hne, b, v, e1, hv, hbig⟩
    · exact ⟨new, hs2, by simpa using hPP h1 g1 (by simp), hb2, h3, h4, h5, by simpa using heq⟩
    · have hpw : (new.map Prod.fst ++ (hs1 ++ [b])).Pairwise (Sooner lib c) := by
        rw [← List.append_assoc, List.pairwise_append]
        refine ⟨h4, by simp, fun x hx y hy => ?_⟩
        simp only [List.mem_singleton] at hy
        subst hy
        intro a w ha hw
        rw [backup_unique hw hv]
        rcases List.mem_append.mp hx with hxn | hxs
        · cases hs1 with
          | nil => rw [h5 rfl] at hxn; cases hxn
          | cons n ns =>
            obtain ⟨u, hu⟩ := ((h2.all n).mp (by simp)).1
            have hxn := (List.pairwise_append.mp h4).2.2 x hxn n (by simp) a u ha hu
            have := hbig n (by simp) u hu
            omega
        · exact hbig x hxs a ha
      have hbk : ∀ n ∈ hs1 ++ [b], ∃ v, Backup lib c n v := by
        intro n hm
        rcases List.mem_append.mp hm with hm | hm
        · exact ((h2.all n).mp hm).1
        · simp only [List.mem_singleton] at hm; rw [hm]; exact ⟨v, hv⟩
      have hnew' : ∀ e ∈ new', ∃ v, Backup lib c e.1 v := fun e he => hbk e.1 (by rw [← e1]; exact List.mem_append_left _ (List.mem_map_of_mem he))
      refine ⟨new ++ new', hs2, hPP h1 g1 ?_, hb2, ?_, ?_, fun e => absurd e hne, heq⟩
      · intro x hx y hy e
        obtain ⟨w, hw⟩ := hnew' y hy
        have := (List.pairwise_append.mp hpw).2.2 x.1 (List.mem_map_of_mem hx) y.1 (by rw [← e1]; exact List.mem_append_left _ (List.mem_map_of_mem hy)) w w (e ▸ hw) hw
        omega
      · intro e he
        rcases List.mem_append.mp he with he | he
        · exact h3 e he
        · exact hnew' e he
      · rw [List.map_append, List.append_assoc, e1]; exact hpw

/-- Each of `new` has an archive of its own, and all other archives are as before. -/
def Each (ext : Str) (a : Str → ANode) (new : Entries) (a' : Str → ANode) : Prop :=
  (∀ e ∈ new, a' (e.1 ++ ext) = .file [e]) ∧ ∀ n, (∀ e ∈ new, n ≠ e.1 ++ ext) → a' n = a n

theorem each_append {ext : Str} {a a1 a2 : Str → ANode} {n1 n2 : Entries} (h1 : Each ext a n1 a1) (h2 : Each ext a1 n2 a2) (hd : ∀ x ∈ n1, ∀ y ∈ n2, x.1 ≠ y.1) : Each ext a (n1 ++ n2) a2 := by
  refine ⟨fun e he => ?_, fun n hn => ?_⟩
  · rcases List.mem_append.mp he with he | he
    · rw [h2.2 _ fun y hy e' => hd e he y hy (List.append_cancel_right e')]; exact h1.1 e he
    · exact h2.1 e he
  · rw [h2.2 n fun e he => hn e (by simp [he]), h1.2 n fun e he => hn e (by simp [he])]

/-- The extension of the archive of a backup. -/
def extOf : ArchiveType → Str
  | .gzip => c!".gz"
  | _ => c!".zip"

theorem explodedName_eq (t : ArchiveType) (n : Str) : t.explodedName n = n ++ extOf t := by cases t <;> rfl

/-- One archive, wherever it stops. -/
theorem stops_exploded {n : Str} {d d' : Disk} {tr : STrace} (h : Stops umask (c.archiveExplodedLogs n) d tr d') :
    d'.arch = d.arch ∨ ∃ data p, d.dir n = some (.file data p) ∧ d'.arch = fun m => if m = n ++ extOf c.archive then .file [(n, data)] else d.arch m := by
  rw [RCfg.archiveExplodedLogs] at h
  cases h with
  | here => exact .inl rfl
  | @call _ _ _ r d1 tr _ hs h =>
    simp only [SysStep] at hs
    obtain ⟨rfl, hs⟩ := hs
    cases r with
    | none => cases h; exact .inl rfl
    | some data =>
      obtain ⟨p, hp⟩ := hs
      cases h with
      | here => exact .inl rfl
      | @call _ _ _ r d2 tr _ hs h =>
        have a2 := noArch_step (by simp [noArch]) hs
        cases r with
        | false => cases h; exact .inl a2
        | true =>
          simp only [SysStep, if_true] at hs
          cases h with
          | here => exact .inl a2
          | @call _ _ _ ok d3 tr _ hs3 h =>
            have a3 := noArch_step (by simp [noArch]) hs3
            cases h with
            | here => exact .inl (by rw [a3, a2])
            | @call _ _ _ closed d4 tr _ hs4 h =>
              have hs4 : d4 = d3 := hs4
              subst hs4
              by_cases hok : (ok && closed) = true
              · have h : Stops umask (if (ok && closed) = true then sys (.tmpRename (c.archive.explodedName n)) else (sys .tmpRemove >>= fun _ => pure false)) d4 tr d' := h
                rw [if_pos hok] at h
                simp only [Bool.and_eq_true] at hok
                obtain ⟨rfl, rfl⟩ := hok
                cases h with
                | here => exact .inl (by rw [a3, a2])
                | @call _ _ _ r d5 tr _ hs5 h =>
                  cases h
                  cases r with
                  | false => have : d' = d4 := hs5; exact .inl (by rw [this, a3, a2])
                  | true =>
                    simp only [SysStep, if_true] at hs3 hs5
                    obtain ⟨es, he, _, rfl⟩ := hs5
                    obtain ⟨es0, he0, rfl⟩ := hs3
                    rw [hs] at he0; cases he0
                    simp only [List.nil_append, Option.some.injEq] at he
                    subst he
                    exact .inr ⟨data, p, hp, by rw [explodedName_eq, ← a2]⟩
              · have h : Stops umask (if (ok && closed) = true then sys (.tmpRename (c.archive.explodedName n)) else (sys .tmpRemove >>= fun _ => pure false)) d4 tr d' := h
                rw [if_neg hok] at h
                left
                rw [noArch_stops (p := (sys .tmpRemove >>= fun _ => pure false)) (Prog.All.bind (Prog.All.sys (by simp [noArch])) fun _ => trivial) h, a3, a2]

/-- One archive, when nothing fails. -/
theorem runs_exploded {n : Str} {d d' : Disk} {tr : STrace} {ok : Bool} (h : Runs umask (c.archiveExplodedLogs n) d tr ok d') (hn : NoneFailed tr) :
    ∃ data p, d.dir n = some (.file data p) ∧ d'.arch = fun m => if m = n ++ extOf c.archive then .file [(n, data)] else d.arch m := by
  rw [RCfg.archiveExplodedLogs] at h
  cases h with
  | @call _ _ _ r d1 tr _ _ hs h =>
    simp only [SysStep] at hs
    obtain ⟨rfl, hs⟩ := hs
    cases r with
    | none => exact absurd rfl (hn ⟨.rollRead n, none⟩ (by simp))
    | some data =>
      obtain ⟨p, hp⟩ := hs
      cases h with
      | @call _ _ _ r d2 tr _ _ hs h =>
        have a2 := noArch_step (by simp [noArch]) hs
        cases r with
        | false => exact absurd rfl (hn ⟨.tmpCreate, false⟩ (by simp))
        | true =>
          simp only [SysStep, if_true] at hs
          cases h with
          | @call _ _ _ ok d3 tr _ _ hs3 h =>
            have a3 := noArch_step (by simp [noArch]) hs3
            cases ok with
            | false => exact absurd rfl (hn ⟨.tmpEntry n data, false⟩ (by simp))
            | true =>
              cases h with
              | @call _ _ _ closed d4 tr _ _ hs4 h =>
                have hs4 : d4 = d3 := hs4
                subst hs4
                cases closed with
                | false => exact absurd rfl (hn ⟨.tmpClose, false⟩ (by simp))
                | true =>
                  cases h with
                  | @call _ _ _ r d5 tr _ _ hs5 h =>
                    cases h
                    cases ok with
                    | false => exact absurd rfl (hn ⟨.tmpRename (c.archive.explodedName n), false⟩ (by simp))
                    | true =>
                      simp only [SysStep, if_true] at hs3 hs5
                      obtain ⟨es, he, _, rfl⟩ := hs5
                      obtain ⟨es0, he0, rfl⟩ := hs3
                      rw [hs] at he0; cases he0
                      simp only [List.nil_append, Option.some.injEq] at he
                      subst he
                      exact ⟨data, p, hp, by rw [explodedName_eq, ← a2]⟩

/-- The archives, wherever it stops. -/
theorem stops_each {ns : List Str} {d d' : Disk} {tr : STrace} (h : Stops umask (c.archiveEach ns) d tr d') (m : Str) :
    d'.arch m = d.arch m ∨ ∃ n ∈ ns, ∃ data p, d.dir n = some (.file data p) ∧ m = n ++ extOf c.archive ∧ d'.arch m = .file [(n, data)] := by
  induction ns generalizing d tr with
  | nil => cases h; exact .inl rfl
  | cons n ns ih =>
    have one : ∀ {d1 : Disk}, (d1.arch = d.arch ∨ ∃ data p, d.dir n = some (.file data p) ∧ d1.arch = fun m => if m = n ++ extOf c.archive then .file [(n, data)] else d.arch m) →
        d1.arch m = d.arch m ∨ ∃ x ∈ n :: ns, ∃ data p, d.dir x = some (.file data p) ∧ m = x ++ extOf c.archive ∧ d1.arch m = .file [(x, data)] := by
      rintro d1 (h | ⟨data, p, h1, h2⟩)
      · exact .inl (by rw [h])
      · by_cases hm : m = n ++ extOf c.archive
        · exact .inr ⟨n, by simp, data, p, h1, hm, by rw [h2]; simp [hm]⟩
        · exact .inl (by rw [h2]; simp [hm])
    rcases stops_bind h with h | ⟨t1, r, d1, t2, h1, h2, rfl⟩
    · exact one (stops_exploded h)
    · have hd : d1.dir = d.dir := (Quiet.runs (quiet_exploded c n) h1).1
      rcases ih h2 with h | ⟨x, hx, data, p, e1, e2, e3⟩
      · rw [h]; exact one (stops_exploded h1.stops)
      · exact .inr ⟨x, by simp [hx], data, p, by rw [← hd]; exact e1, e2, e3⟩

/-- The archives, when nothing fails. -/
theorem runs_each {ns : List Str} (hnd : ns.Nodup) {d d' : Disk} {tr : STrace} (h : Runs umask (c.archiveEach ns) d tr () d') (hn : NoneFailed tr) :
    ∃ new, Each (extOf c.archive) d.arch new d'.arch ∧ Contains d.dir ns new := by
  induction ns generalizing d tr with
  | nil => cases h; exact ⟨[], ⟨by simp, fun _ _ => rfl⟩, rfl, by simp⟩
  | cons n ns ih =>
    obtain ⟨t1, r, d1, t2, h1, h2, rfl⟩ := runs_bind h
    obtain ⟨n1, n2⟩ := noneFailed_append.mp hn
    have hd : d1.dir = d.dir := (Quiet.runs (quiet_exploded c n) h1).1
    obtain ⟨data, p, e1, e2⟩ := runs_exploded h1 n1
    obtain ⟨hnn, hnd⟩ := List.nodup_cons.mp hnd
    obtain ⟨new, f1, f2, f3⟩ := ih hnd h2 n2
    refine ⟨(n, data) :: new, ?_, by simp [f2], ?_⟩
    · refine each_append (n1 := [(n, data)]) (a1 := d1.arch) ⟨?_, ?_⟩ f1 ?_
      · intro e he
        simp only [List.mem_singleton] at he
        rw [he, e2]; simp
      · intro m hm
        rw [e2]; simp [hm (n, data) (by simp)]
      · intro x hx y hy e
        simp only [List.mem_singleton] at hx
        subst hx
        exact hnn (by rw [← f2, show n = y.1 from e]; exact List.mem_map_of_mem hy)
    · intro e he
      rcases List.mem_cons.mp he with rfl | he
      · exact ⟨p, e1⟩
      · rw [← hd]; exact f3 e he

/-- The archives during the deletion, one for each backup. -/
theorem stops_delete_each {hs : List Str} (he : c.exploded = true) {d d' : Disk} {tr : STrace} (h : Stops umask (c.deleteOldRolls hs) d tr d') (m : Str) :
    d'.arch m = d.arch m ∨ ∃ n ∈ hs.take (hs.length - c.maxRolls.toNat), ∃ data p, d.dir n = some (.file data p) ∧ m = n ++ extOf c.archive ∧ d'.arch m = .file [(n, data)] := by
  rw [RCfg.deleteOldRolls] at h
  split at h
  · cases h; exact .inl rfl
  · rename_i h0
    dsimp only at h
    split at h
    · cases h; exact .inl rfl
    · have hk : ((hs.length : Int) - c.maxRolls).toNat = hs.length - c.maxRolls.toNat := by omega
      rw [hk] at h
      split at h
      · rcases stops_bind h with h | ⟨t1, r, d1, t2, h1, h2, rfl⟩
        · left; rw [noArch_stops (Prog.All.sys (by simp [noArch])) h]
        · have e1 : d1 = d := by
            cases h1 with
            | call hs h1 => cases h1; exact hs
          subst e1
          rcases stops_bind h2 with h2 | ⟨t3, r, d2, t4, h3, h4, rfl⟩
          · exact stops_each h2 m
          · rw [noArch_stops (noArch_remove _) h4]
            exact stops_each h3.stops m
      · left; rw [noArch_stops (noArch_remove _) h]

/-- The deletion when nothing fails: the oldest are gone, and each is in an archive of its own. -/
theorem delete_each (he : c.exploded = true) (ha : c.archive ≠ .none) : Deletes umask c (Each (extOf c.archive)) := by
  intro hs d d' tr hnd hne h hn
  have hlen : 0 < hs.length := by cases hs <;> simp at hne ⊢
  have none' : ∃ k new, k < hs.length ∧ (∀ n, d.dir n = if n ∈ hs.take k then none else d.dir n) ∧ Each (extOf c.archive) d.arch new d.arch ∧ Contains d.dir (hs.take k) new :=
    ⟨0, [], hlen, by simp, ⟨by simp, fun _ _ => rfl⟩, rfl, by simp⟩
  rw [RCfg.deleteOldRolls] at h
  split at h
  · cases h; exact none'
  · rename_i h0
    dsimp only at h
    split at h
    · cases h; exact none'
    · obtain ⟨t1, r, d1, t2, h1, h2, rfl⟩ := runs_bind h
      have e1 : d1 = d ∧ t1 = [⟨.mkdirAll c.dirPerm, r⟩] := by
        cases h1 with
        | call hs h1 => cases h1; exact ⟨hs, rfl⟩
      obtain ⟨rfl, rfl⟩ := e1
      obtain ⟨t3, r, d2, t4, h3, h4, rfl⟩ := runs_bind h2
      obtain ⟨new, o1, o2⟩ := runs_each (hnd.sublist (List.take_sublist _ _)) h3 fun x hx => hn x (by simp [hx])
      have hd := (Quiet.runs (quiet_each c _) h3).1
      have hrm : RemovesOk t4 := removesOk_of_noneFailed fun x hx => hn x (by simp [hx])
      obtain ⟨k1, _, k3⟩ := runs_removeAll h4
      refine ⟨_, new, by omega, fun n => ?_, by rw [noArch_stops (noArch_remove _) h4.stops]; exact o1, o2⟩
      split
      · rename_i hm; exact k3 n hm fun h => by cases hrm _ _ h
      · rename_i hm
        rcases k1 n with k | ⟨k, _⟩
        · rw [k, hd]
        · exact absurd k hm

end Log4g
